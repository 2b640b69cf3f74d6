import Verif.Cst.Lemmas
/-!
# Properties of the cancellation state
-/
namespace Cobalt.Cst

/-- **C53**, in full: awaiting an operation throws exactly if throwing is enabled and a
cancellation passing the filter has arrived since the last reset of the state. -/
def C53 : Prop := ∀ (d : Filter) (src : Option Nat) (f : Filter) (es : List Ev) (a : Await),
  a ≠ .thisCoro →
  (((St.start src f).run d es).throws a = true ↔
    enabled true es = true ∧ Pending d (St.start src f) es)

/-- Without `throw_if_cancelled` nothing throws. -/
theorem C53_disabled (d : Filter) (src : Option Nat) (f : Filter) (es : List Ev) (a : Await)
    (h : enabled true es = false) : ((St.start src f).run d es).throws a = false := by
  have := run_enabled d es (St.start src f)
  cases a
  · simp only [St.throws, this]
    have : (St.start src f).throwIf = true := rfl
    rw [this, h, Bool.and_false]
  · rfl
  · rfl

example : enabled true [.emit 0 { terminal := true }, .throwIf false] = false := rfl

/-- Awaiting an awaitable throws exactly if throwing is enabled and, of the cancellations
since the last reset, the last one passes the filter. -/
theorem C53_exact (d : Filter) (src : Option Nat) (f : Filter) (es : List Ev) :
    ((St.start src f).run d es).throws .awaitable = true ↔
      enabled true es = true ∧ LastPasses d (St.start src f) es := by
  have h := run_enabled d es (St.start src f)
  simp only [St.throws, Bool.and_eq_true, cancelled_iff, h]
  exact ⟨fun ⟨a, b⟩ => ⟨b, a⟩, fun ⟨a, b⟩ => ⟨b, a⟩⟩

theorem last_pending {d : Filter} {s : St} {es : List Ev} (h : LastPasses d s es) : Pending d s es := by
  obtain ⟨f, o, x, a, c, b, hs, _, hp⟩ := h
  exact ⟨f, o, x, _, c, hs, by simp, hp⟩

/-- No await throws without reason. -/
theorem C53_sound (d : Filter) (src : Option Nat) (f : Filter) (es : List Ev) (a : Await)
    (h : ((St.start src f).run d es).throws a = true) :
    enabled true es = true ∧ Pending d (St.start src f) es := by
  cases a with
  | awaitable =>
    obtain ⟨h1, h2⟩ := (C53_exact d src f es).1 h
    exact ⟨h1, last_pending h2⟩
  | deferred => cases h
  | thisCoro => cases h

/-- Since the last reset no cancellation that passes is followed by one that does not. -/
def Steady (d : Filter) (s : St) (es : List Ev) : Prop :=
  ∀ f o x a c b c', Since d s es f o (some x) (a ++ .emit x c :: b) → .emit x c' ∈ b →
    f c ≠ .none_ → f c' ≠ .none_

/-- The last of the cancellations in a list. -/
theorem last_emit (x : Nat) : ∀ (mid : List Ev) (c : CT), .emit x c ∈ mid →
    ∃ a c' b, mid = a ++ .emit x c' :: b ∧ ∀ c'', .emit x c'' ∉ b := by
  intro mid
  induction mid with
  | nil => intro c h; cases h
  | cons e mid ih =>
    intro c h
    by_cases hm : ∃ c', Ev.emit x c' ∈ mid
    · obtain ⟨c', hm⟩ := hm
      obtain ⟨a, c'', b, h1, h2⟩ := ih c' hm
      exact ⟨e :: a, c'', b, by rw [h1]; rfl, h2⟩
    · rcases List.mem_cons.1 h with rfl | h'
      · exact ⟨[], c, mid, rfl, fun c'' hc => hm ⟨c'', hc⟩⟩
      · exact absurd ⟨c, h'⟩ hm

/-- **C53**, as far as it holds. Missing from the full statement: deferred operations, and
sequences in which a cancellation that passes the filter is followed by one that does not. -/
theorem C53_partial (d : Filter) (src : Option Nat) (f : Filter) (es : List Ev)
    (hs : Steady d (St.start src f) es) :
    ((St.start src f).run d es).throws .awaitable = true ↔
      enabled true es = true ∧ Pending d (St.start src f) es := by
  refine ⟨C53_sound d src f es .awaitable, fun ⟨h1, h2⟩ => (C53_exact d src f es).2 ⟨h1, ?_⟩⟩
  obtain ⟨g, o, x, mid, c, hm, he, hp⟩ := h2
  obtain ⟨a, c', b, hmid, hn⟩ := last_emit x mid c he
  refine ⟨g, o, x, a, c', b, hmid ▸ hm, hn, ?_⟩
  rw [hmid] at he
  rcases List.mem_append.1 he with ha | hb
  · obtain ⟨a1, a2, rfl⟩ := List.append_of_mem ha
    refine hs g o x a1 c (a2 ++ .emit x c' :: b) c' ?_ (by simp) hp
    rw [hmid] at hm
    simpa using hm
  · rcases List.mem_cons.1 hb with h' | h'
    · injection h' with _ h'; rw [← h']; exact hp
    · exact absurd h' (hn c)

/-- With the filters cobalt's own coroutines begin with and no others, and cancellations of
some type, nothing is missing for awaitables. -/
theorem C53_default (src : Option Nat) (es : List Ev)
    (hf : ∀ e ∈ es, ∀ f g, e ≠ .reset1 f ∧ e ≠ .reset2 f g)
    (he : ∀ x c, .emit x c ∈ es → c ≠ .none_) :
    ((St.start src enableTotal).run enableTotal es).throws .awaitable = true ↔
      enabled true es = true ∧ Pending enableTotal (St.start src enableTotal) es := by
  apply C53_partial
  intro f o x a c b c' hs hc' hp
  have hin : Ev.emit x c' ∈ es := by
    rcases hs.2 with ⟨rfl, _⟩ | ⟨pre, r, rfl, _⟩
    · simp [hc']
    · simp [hc']
  have hft : f = enableTotal := by
    rcases hs.2 with ⟨_, rfl, _, _⟩ | ⟨pre, r, rfl, hr⟩
    · rfl
    · have hr' := hf r (by simp)
      cases r with
      | emit y c => cases hr
      | throwIf b => cases hr
      | reset0 => exact (congrArg (fun t => t.1) (Option.some.inj hr)).symm
      | reset1 g => exact absurd rfl (hr' g g).1
      | reset2 g g' => exact absurd rfl (hr' g g').2
      | source s => cases hr; rfl
  subst hft
  exact he x c' hin

/-- Cancelled, reset, cancelled again. -/
def again : List Ev := [.emit 0 { total := true }, .reset0, .emit 0 { partial_ := true }]

example : (∀ x c, .emit x c ∈ again → c ≠ .none_) ∧ (∀ e ∈ again, ∀ f g, e ≠ .reset1 f ∧ e ≠ .reset2 f g) ∧
    ((St.start (some 0) enableTotal).run enableTotal again).throws .awaitable = true ∧
    ((St.start (some 0) enableTotal).run enableTotal (again.take 2)).throws .awaitable = false := by
  refine ⟨?_, by simp [again], by decide, by decide⟩
  intro x c h
  simp only [again, List.mem_cons, List.not_mem_nil, or_false, Ev.emit.injEq, reduceCtorEq, false_or] at h
  rcases h with ⟨_, rfl⟩ | ⟨_, rfl⟩ <;> decide

/-- After a reset, and as long as nothing arrives, no await throws. -/
theorem C53_reset (d : Filter) (src : Option Nat) (f : Filter) (pre : List Ev) (r : Ev)
    (hr : r.isReset = true) (mid : List Ev) (hm : ∀ e ∈ mid, ∀ x c, e ≠ .emit x c)
    (a : Await) :
    ((St.start src f).run d (pre ++ r :: mid)).throws a = false := by
  have key : ∀ (mid : List Ev) (s : St), (∀ e ∈ mid, ∀ x c, e ≠ .emit x c) → s.cancelled = .none_ →
      (s.run d mid).cancelled = .none_ := by
    intro mid
    induction mid with
    | nil => exact fun _ _ h => h
    | cons e mid ih =>
      intro s hm h
      refine ih _ (fun e' he' => hm e' (List.mem_cons_of_mem _ he')) ?_
      cases e with
      | emit x c => exact absurd rfl (hm _ (List.mem_cons_self ..) x c)
      | throwIf b => exact h
      | _ => rfl
  have hc : ((St.start src f).run d (pre ++ r :: mid)).cancelled = .none_ := by
    rw [run_append, run_cons]
    refine key mid _ hm ?_
    cases r <;> first | rfl | cases hr
  cases a
  · simp [St.throws, St.isCancelled, hc]
  · rfl
  · rfl

example : (Ev.reset1 enableTerminal).isReset = true := rfl

/-- A cancellation on the source goes to the operation waited for if it passes both filters,
changed by them, and only then. -/
theorem C53_forward (d : Filter) (s : St) (x : Nat) (c : CT) (h : s.src = some x) :
    (s.outF (s.inF c) ≠ .none_ → (s.step d (.emit x c)).out = s.out ++ [s.outF (s.inF c)]) ∧
    (s.outF (s.inF c) = .none_ → (s.step d (.emit x c)).out = s.out) := by
  constructor <;> intro hn <;> simp [St.step, h, hn]

example : ((St.start (some 0) enablePartial).step enableTotal (.emit 0 { partial_ := true, total := true })).out
    = [{ partial_ := true }] := rfl

/-- One on another source has no effect. -/
theorem C53_other (d : Filter) (s : St) (x : Nat) (c : CT) (h : s.src ≠ some x) :
    s.step d (.emit x c) = s := by simp [St.step, h]

example : (St.start (some 0) enableTotal).src ≠ some 1 := by decide

/-- A terminal cancellation and then a total one, with a filter for terminal ones only. -/
def forgetting : List Ev := [.emit 0 { terminal := true }, .emit 0 { total := true }]

theorem forgetting_pending : Pending enableTotal (St.start (some 0) enableTerminal) forgetting :=
  ⟨enableTerminal, enableTerminal, 0, forgetting, { terminal := true },
    ⟨by simp [forgetting, Ev.isReset], .inl ⟨rfl, rfl, rfl, rfl⟩⟩, by simp [forgetting], by decide⟩

/-- **C53** is violated: a cancellation that passed the filter is forgotten when another one
comes that does not. -/
theorem C53_violated : ¬ C53 := by
  intro h
  have := (h enableTotal (some 0) enableTerminal forgetting .awaitable (by decide)).2
    ⟨rfl, forgetting_pending⟩
  revert this
  decide

/-- **C53** is violated in a second way: awaiting a deferred operation never throws. -/
theorem C53_violated_deferred (d : Filter) (src : Option Nat) (f : Filter) (es : List Ev) :
    ((St.start src f).run d es).throws .deferred = false := rfl

/-- This can be with a cancellation pending. -/
example : Pending enableTotal (St.start (some 0) enableTerminal) forgetting := forgetting_pending

/-- With `disable_cancellation` in force no await throws and nothing is passed on, until the state is reset. -/
theorem C53_off (d : Filter) (src : Option Nat) (es : List Ev) (h : ∀ e ∈ es, e.isReset = false) (a : Await) :
    ((St.start src disableAll).run d es).throws a = false ∧ ((St.start src disableAll).run d es).out = [] := by
  have key : ∀ (es : List Ev) (s : St), (∀ e ∈ es, e.isReset = false) → s.inF = disableAll → s.outF = disableAll →
      s.cancelled = .none_ → s.out = [] → (s.run d es).cancelled = .none_ ∧ (s.run d es).out = [] := by
    intro es
    induction es with
    | nil => exact fun _ _ _ _ h1 h2 => ⟨h1, h2⟩
    | cons e es ih =>
      intro s hs hi ho hc hn
      have he := hs e (List.mem_cons_self ..)
      refine ih _ (fun x hx => hs x (List.mem_cons_of_mem _ hx)) ?_ ?_ ?_ ?_ <;>
        cases e <;> simp_all [Ev.isReset, St.step] <;> split <;> simp_all [disableAll]
  obtain ⟨h1, h2⟩ := key es (St.start src disableAll) h rfl rfl rfl rfl
  refine ⟨?_, h2⟩
  cases a <;> simp [St.throws, St.isCancelled, h1]

/-- What the filters of Asio let through: terminal cancellations all but the last, partial ones the second and third,
total ones the third. -/
theorem C53_filters (c : CT) :
    (enableTerminal c ≠ .none_ ↔ c.terminal = true) ∧
    (enablePartial c ≠ .none_ ↔ c.terminal = true ∨ c.partial_ = true) ∧
    (enableTotal c ≠ .none_ ↔ c.terminal = true ∨ c.partial_ = true ∨ c.total = true) ∧
    disableAll c = .none_ := by
  obtain ⟨a, b, e⟩ := c
  cases a <;> cases b <;> cases e <;> decide

end Cobalt.Cst
