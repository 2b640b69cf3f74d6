import Verif.Cmp.Model
/-!
# Properties of operations written as coroutines
-/
namespace Cobalt.Cmp

/-! ## Specification -/

/-- Nothing is pending any more. -/
def Over (s : St) : Prop := (∀ r, s.frame ≠ .suspended r) ∧ s.posted = false

/-- The ends of the awaiting coroutine's wait in a trace. -/
def fates (t : List Obs) : List (Option End) :=
  t.filterMap fun
    | .resumed e => some (some e)
    | .callerGone => some none
    | _ => none

/-- The awaiting coroutine goes on at most once, with the outcome of the body, unless it is
destroyed; the frame is destroyed at most once; both happen if the operation is over. -/
structure Once (p : Prog) (s : St) : Prop where
  fate : fates s.trace = [] ∨ fates s.trace = [some p.fin] ∨ fates s.trace = [none]
  frame : s.trace.count .frameGone ≤ 1
  both : Over s → fates s.trace ≠ [] ∧ s.trace.count .frameGone = 1

/-- **C71**, in full: and no freed memory is used, and no exception is left to whoever runs the
executor. -/
def C71 : Prop :=
  ∀ c p es, Once p (run c p es) ∧ .stale ∉ (run c p es).trace ∧ .escaped ∉ (run c p es).trace

/-- The handler is used after the frame it is in was destroyed. -/
theorem C71_violated : ¬ C71 := fun h =>
  absurd (h ⟨true, true⟩ ⟨[.pending], .ret 5⟩ [.complete]).2.1 (by decide)

/-- Where the destruction is posted it comes after the awaitable with the frame in it is gone. -/
theorem C71_deferred_violated :
    (run ⟨false, true⟩ ⟨[.pending], .ret 5⟩ [.complete, .posted]).trace =
      [.resumed (.ret 5), .stale, .stale, .stale, .frameGone] := by decide

/-- Destroying a pending composition destroys the awaiting coroutine, with the frame being
destroyed in it. -/
theorem C71_drop_violated :
    (run ⟨true, true⟩ ⟨[.pending], .ret 5⟩ [.drop]).trace =
      [.callerGone, .stale, .stale, .stale, .frameGone] := by decide

/-- The same if the frame is elsewhere: the resource is gone. -/
theorem C71_drop_large_violated :
    (run ⟨true, false⟩ ⟨[.pending], .ret 5⟩ [.drop]).trace =
      [.callerGone, .stale, .frameGone] := by decide

/-- An exception leaves the frame, and the awaiting coroutine waiting. -/
theorem C71_throw_violated :
    (run ⟨true, true⟩ ⟨[.pending], .throws⟩ [.complete]).trace = [.escaped] := by decide

/-! ## What is true of every run -/

/-- Where a run can be. -/
inductive At (c : Cfg) (p : Prog) : St → Prop where
  | pending (r : List Step) : At c p { frame := .suspended r }
  | returned (v : Nat) (h : p.fin = .ret v) (hc : c.selfDelete = true) :
    At c p { frame := .freed, caller := .goneOn, trace := [.frameGone, .stale, .resumed (.ret v)] }
  | toDestroy (v : Nat) (h : p.fin = .ret v) (hc : c.selfDelete = false) :
    At c p { frame := .ended, caller := .goneOn, posted := true, trace := [.resumed (.ret v)] }
  | destroyed (v : Nat) (h : p.fin = .ret v) (hc : c.selfDelete = false) :
    At c p { frame := .freed, caller := .goneOn,
             trace := .resumed (.ret v) ::
               ((if c.fits then [.stale, .stale] else []) ++ [.stale, .frameGone]) }
  | threw (h : p.fin = .throws) :
    At c p { frame := .ended, caller := .goneOn, trace := [.resumed .throws] }
  | escaped (h : p.fin = .throws) : At c p { frame := .ended, trace := [.escaped] }
  | dropped :
    At c p { frame := .freed, caller := .destroyed,
             trace := .callerGone ::
               ((if c.fits then [.stale, .stale] else []) ++ [.stale, .frameGone]) }

theorem At.body (c : Cfg) (p : Prog) (r0 : List Step) (starting : Bool) (l : List Step) :
    At c p (St.body { frame := .suspended r0 } c p.fin starting l) := by
  induction l with
  | nil =>
    cases hf : p.fin with
    | ret v =>
      rcases c with ⟨_ | _, _ | _⟩
      · exact .toDestroy v hf rfl
      · exact .toDestroy v hf rfl
      · exact .returned v hf rfl
      · exact .returned v hf rfl
    | throws =>
      cases starting
      · exact .escaped hf
      · exact .threw hf
  | cons a l ih =>
    cases a
    · exact ih
    · exact .pending l

theorem At.step {c : Cfg} {p : Prog} {s : St} (h : At c p s) (e : Ev) :
    At c p (s.step c p.fin e) := by
  cases h with
  | pending r =>
    cases e with
    | complete => exact .body c p r false r
    | drop =>
      have := At.dropped (c := c) (p := p)
      rcases c with ⟨b, _ | _⟩ <;> cases b <;> exact this
    | posted => exact .pending r
  | returned v h hc => cases e <;> exact .returned v h hc
  | toDestroy v h hc =>
    cases e with
    | complete => exact .toDestroy v h hc
    | drop => exact .toDestroy v h hc
    | posted =>
      have := At.destroyed (c := c) (p := p) v h hc
      rcases c with ⟨b, _ | _⟩ <;> cases b <;> exact this
  | destroyed v h hc => cases e <;> exact .destroyed v h hc
  | threw h => cases e <;> exact .threw h
  | escaped h => cases e <;> exact .escaped h
  | dropped => cases e <;> exact .dropped

theorem At.run (c : Cfg) (p : Prog) (es : List Ev) : At c p (run c p es) := by
  have key : ∀ s, At c p s → At c p (es.foldl (fun s e => s.step c p.fin e) s) := by
    induction es with
    | nil => exact fun s h => h
    | cons e es ih => exact fun s h => ih _ (h.step e)
  exact key _ (At.body c p p.steps true p.steps)

/-- What holds, uses of freed memory aside: a composition which does not throw gives its result to
the awaiting coroutine once, or destroys it, and its frame is destroyed once. -/
theorem C71_partial (c : Cfg) (p : Prog) (es : List Ev) (hf : p.fin ≠ .throws) :
    Once p (run c p es) ∧ .escaped ∉ (run c p es).trace := by
  generalize hs : run c p es = s
  have h : At c p s := hs ▸ At.run c p es
  clear hs
  rcases c with ⟨b, f⟩
  cases h with
  | pending r =>
    exact ⟨⟨.inl rfl, by simp, fun ho => absurd rfl (ho.1 r)⟩, by simp⟩
  | returned v h hc =>
    exact ⟨⟨.inr (.inl (by simp [fates, h])), by simp, fun _ => by simp [fates]⟩, by simp⟩
  | toDestroy v h hc =>
    refine ⟨⟨.inr (.inl (by simp [fates, h])), by simp, fun ho => ?_⟩, by simp⟩
    cases ho.2
  | destroyed v h hc =>
    cases f <;>
    exact ⟨⟨.inr (.inl (by simp [fates, h])), by simp, fun _ => by simp [fates]⟩, by simp⟩
  | threw h => exact absurd h hf
  | escaped h => exact absurd h hf
  | dropped =>
    cases f <;>
    exact ⟨⟨.inr (.inr (by simp [fates])), by simp, fun _ => by simp [fates]⟩, by simp⟩

example : (⟨[.immediate, .pending, .pending], .ret 7⟩ : Prog).fin ≠ .throws ∧
    fates (run ⟨true, false⟩ ⟨[.immediate, .pending, .pending], .ret 7⟩ [.complete, .complete]).trace
      = [some (.ret 7)] := by decide

/-- A composition which throws at once gives the exception to the awaiting coroutine; its frame
is never destroyed. -/
theorem C71_throws (c : Cfg) (p : Prog) (es : List Ev) (hf : p.fin = .throws) :
    .frameGone ∈ (run c p es).trace ↔ .callerGone ∈ (run c p es).trace := by
  generalize hs : run c p es = s
  have h : At c p s := hs ▸ At.run c p es
  clear hs
  rcases c with ⟨b, _ | _⟩ <;> cases h <;> simp_all

/-- No composition ends well: one that is over has used freed memory, or has left its frame. -/
theorem C71_never (c : Cfg) (p : Prog) (es : List Ev) (ho : Over (run c p es)) :
    .stale ∈ (run c p es).trace ∨ .frameGone ∉ (run c p es).trace := by
  generalize hs : run c p es = s at *
  have h : At c p s := hs ▸ At.run c p es
  clear hs
  rcases c with ⟨b, _ | _⟩ <;> cases h <;> first | exact absurd rfl (ho.1 _) | simp

example : Over (run ⟨true, true⟩ ⟨[.pending], .ret 5⟩ [.complete]) :=
  ⟨fun _ h => (nomatch h), rfl⟩

/-- Exactly when the property holds: as long as the composition is not over. -/
theorem C71_exact (c : Cfg) (p : Prog) (es : List Ev) :
    (Once p (run c p es) ∧ .stale ∉ (run c p es).trace ∧ .escaped ∉ (run c p es).trace) ↔
    ¬ Over (run c p es) := by
  constructor
  · rintro ⟨ho, hs, -⟩ h
    rcases C71_never c p es h with h' | h'
    · exact hs h'
    · have := (ho.both h).2
      exact h' (List.count_pos_iff.1 (by omega))
  · intro ho
    generalize hs : run c p es = s at *
    have h : At c p s := hs ▸ At.run c p es
    clear hs
    cases h with
    | pending r => exact ⟨⟨.inl rfl, by simp, fun h => absurd h ho⟩, by simp, by simp⟩
    | toDestroy v h hc =>
      exact ⟨⟨.inr (.inl (by simp [fates, h])), by simp, fun h => absurd h ho⟩, by simp, by simp⟩
    | returned => exact absurd ⟨by simp, rfl⟩ ho
    | destroyed => exact absurd ⟨by simp, rfl⟩ ho
    | threw => exact absurd ⟨by simp, rfl⟩ ho
    | escaped => exact absurd ⟨by simp, rfl⟩ ho
    | dropped => exact absurd ⟨by simp, rfl⟩ ho

/-- Not over: the result is there, the frame still to be destroyed. -/
example : ¬ Over (run ⟨false, true⟩ ⟨[.pending], .ret 5⟩ [.complete]) := fun h => (nomatch h.2)

/-- Where frames are destroyed at once, a composition which returns uses freed memory just once,
after its frame was destroyed and before anything else happens. -/
theorem C71_once_stale (p : Prog) (b : Bool) (es : List Ev) (ho : Over (run ⟨true, b⟩ p es))
    (hd : .callerGone ∉ (run ⟨true, b⟩ p es).trace) (hf : p.fin ≠ .throws) :
    ∃ v, p.fin = .ret v ∧ (run ⟨true, b⟩ p es).trace = [.frameGone, .stale, .resumed (.ret v)] := by
  generalize hs : run ⟨true, b⟩ p es = s at *
  have h : At ⟨true, b⟩ p s := hs ▸ At.run ⟨true, b⟩ p es
  clear hs
  cases h <;> first
    | exact absurd rfl (ho.1 _)
    | exact ⟨_, ‹_›, rfl⟩
    | (exfalso; simp_all)

end Cobalt.Cmp
