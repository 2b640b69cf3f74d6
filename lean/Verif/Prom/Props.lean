import Verif.Prom.InvStep
import Verif.Prom.TidyDec
/-! Properties C25-C28: promises. -/
namespace Cobalt.Prom

/-! ## C25 -/

/-- **C25** in full: in every possible history nothing undefined happens, every await
that ended gave what it should, once, and an await that has not ended stands for a
coroutine that has not ended. -/
def C25 : Prop := ∀ es, Legal {} es →
  (St.run es).ub = false ∧
  (∀ a g, (a, g) ∈ (St.run es).log → Explains (spec es) a g) ∧
  ((St.run es).log.map Prod.fst).Nodup ∧
  ∀ a w, (St.run es).aw a = some w → w.got = none → a ∉ (St.run es).killed →
    ∃ c, (spec es).target a = .coro c ∧ (spec es).ended c = none

/-- **C25** for the uses listed at `Tidy`: any number of promises and coroutines, any
order of creating, finishing, destroying, awaiting, interrupting, moving, detaching,
cancelling. -/
theorem C25_delivers_partial (es : List Ev) (ht : TidyRun {} {} es) :
    (St.run es).ub = false ∧
    (∀ a g, (a, g) ∈ (St.run es).log → Explains (spec es) a g) ∧
    ((St.run es).log.map Prod.fst).Nodup ∧
    ∀ a w, (St.run es).aw a = some w → w.got = none → a ∉ (St.run es).killed →
      ∃ c, (spec es).target a = .coro c ∧ (spec es).ended c = none := by
  have h := Inv.run ht
  refine ⟨h.ub, ?_, h.once, ?_⟩
  · intro a g hg
    obtain ⟨w, h1, h2⟩ := (h.log a g).1 hg
    exact h.got a w g h1 h2
  · intro a w h1 h2 h3
    obtain ⟨R, c, -, -, -, h4, h5⟩ := h.pend a w h1 h2 h3
    exact ⟨c, h5, h4⟩

/-- What an awaiter that waits gets: exactly the outcome. -/
def exact : Out → Got
  | .val v => .val v
  | .exc e => .err (.user e)

/-- **C25**, awaiting before the coroutine ends: when it does, the awaiter is resumed
with exactly the outcome, and it is the only one. -/
theorem C25_before_partial (es : List Ev) (ht : TidyRun {} {} es) {a r c : Nat} {R : Rec} {o : Out}
    (hR : (St.run es).recv r = some R) (ha : R.awaited = some a) (hh : (spec es).holds r = .coro c)
    (hc : (St.run es).can (.finish c o) = true) :
    (St.run (es ++ [.finish c o])).log = (a, exact o) :: (St.run es).log := by
  have h := Inv.run ht
  have hf := h.fit r R hR
  rw [hh] at hf
  obtain ⟨-, hf⟩ := hf
  have hn : (spec es).ended c = none := by
    cases he : (spec es).ended c with
    | none => rfl
    | some e =>
      rw [he] at hf
      rcases e with (_ | _) | _ <;> simp only at hf <;> rw [hf.2.1] at ha <;> simp at ha
  rw [hn] at hf
  simp only at hf
  obtain ⟨hd, hx, htk, hfr⟩ := hf
  have hw := (h.awaited r R a hR ha).1
  have : St.run (es ++ [.finish c o]) = (St.run es).step (.finish c o) := by
    simp [St.run, St.steps]
  rw [this]
  unfold St.step
  rw [if_neg (by simp [h.ub, hc])]
  cases o <;> simp [St.finish, hfr, hR, ha, St.resumeAw, hw, St.getResult, exact, hx]

/-- **C25**, awaiting after the coroutine has ended: the await ends at once; it gives
the outcome, a value only as long as it was not taken (`operator bool`). -/
theorem C25_after_partial (es : List Ev) (ht : TidyRun {} {} es) {a r c : Nat} {R : Rec} {e : End}
    (hR : (St.run es).recv r = some R) (hh : (spec es).holds r = .coro c)
    (he : (spec es).ended c = some e) (hc : (St.run es).can (.await a r) = true) :
    ∃ g, fits e g ∧ (R.toBool = true → g ≠ .moved) ∧
      (St.run (es ++ [.await a r])).log = (a, g) :: (St.run es).log := by
  have h := Inv.run ht
  have hf := h.fit r R hR
  rw [hh] at hf
  obtain ⟨-, hf⟩ := hf
  have : St.run (es ++ [.await a r]) = (St.run es).step (.await a r) := by
    simp [St.run, St.steps]
  rw [this]
  unfold St.step
  rw [if_neg (by simp [h.ub, hc]), he] at *
  rcases e with (v | x) | _ <;> simp only at hf
  · simp only [St.await, hR, hf.1, if_true, St.resumeAw, St.getResult, hf.2.2.1, hf.2.2.2, Rec.toBool, fits, upd_apply]
    cases R.taken <;> simp
  · simp [St.await, hR, hf.1, St.resumeAw, St.getResult, hf.2.2, fits]
  · simp [St.await, hR, hf.1, St.resumeAw, St.getResult, hf.2.2, fits]

/-- **C25**: while one await is pending another one fails with `already_awaited`, at
once, and nothing else changes. Of any state. -/
theorem C25_second {s : St} {a b r : Nat} {R : Rec} (hR : s.recv r = some R) (hb : R.awaited = some b)
    (hd : R.done = false) (hu : s.ub = false) (hc : s.can (.await a r) = true) :
    (s.step (.await a r)).log = (a, .err .alreadyAwaited) :: s.log ∧
    (s.step (.await a r)).recv = s.recv ∧ (s.step (.await a r)).frame = s.frame ∧
    (s.step (.await a r)).ub = false ∧ ∀ x, x ≠ a → (s.step (.await a r)).aw x = s.aw x := by
  unfold St.step
  rw [if_neg (by simp [hu, hc])]
  simp only [St.await, hR, hd, hb, St.resumeAw]
  simp [hu]
  intro x h1
  simp [h1]

/-- Two promises; one is awaited before its coroutine ends, interrupted, moved, awaited
twice; the other is awaited after it threw. -/
def sched : List Ev :=
  [.create 0 0, .create 1 1, .await 0 0, .await 1 0, .interrupt 0, .moveC 0 2, .finish 1 (.exc 7),
   .await 2 2, .await 3 1, .finish 0 (.val 5), .await 4 2, .await 5 0, .leave 2, .drop 2]

example : TidyRun {} {} sched := tidyRun_of (by decide)

example : (St.run sched).log = [(5, .err .movedFrom), (4, .moved), (2, .val 5), (3, .err (.user 7)),
    (0, .err .detached), (1, .err .alreadyAwaited)] := by decide

/-- The hypotheses of `C25_before_partial` and of `C25_second`. -/
example : ((St.run (sched.take 8)).recv 2).map (·.awaited) = some (some 2) ∧ (spec (sched.take 8)).holds 2 = .coro 0 ∧
    (St.run (sched.take 8)).can (.finish 0 (.val 5)) = true ∧ (St.run (sched.take 8)).can (.await 9 2) = true := by decide

/-- The hypotheses of `C25_after_partial`. -/
example : (spec (sched.take 8)).holds 1 = .coro 1 ∧ (spec (sched.take 8)).ended 1 = some (.out (.exc 7)) ∧
    ((St.run (sched.take 8)).recv 1).isSome ∧ (St.run (sched.take 8)).can (.await 3 1) = true := by decide

/-- **C25** does not hold in full: await 0 waits for coroutine 0, await 1 fails with
`already_awaited`. Interrupting await 1, as a race does with all its awaitables when
one of them ends, resumes await 0, for which there is no result. -/
def wrongInterrupt : List Ev := [.create 0 0, .await 0 0, .await 1 0, .interrupt 1]

theorem C25_violated : ¬C25 := by
  intro h
  have := (h wrongInterrupt (by decide)).1
  revert this
  decide

/-- **C25** does not hold in full either without undefined behaviour: moving a promise
while it is awaited resumes the awaiter with `moved_from` although the coroutine ended
with a value. -/
theorem C25_moved_violated : ∃ es, Legal {} es ∧ (St.run es).ub = false ∧
    (∀ a, (spec es).asked a = false) ∧ (spec es).target 0 = .coro 0 ∧ (spec es).ended 0 = some (.out (.val 5)) ∧
    (St.run es).log = [(0, .err .movedFrom)] :=
  ⟨[.create 0 0, .await 0 0, .moveC 0 1, .finish 0 (.val 5)], by decide, by decide, fun _ => rfl, by decide, by decide, by decide⟩

/-! ## C26 -/

/-- **C26**: interrupting a pending await ends it with `detached`; the coroutines and
what the promise stands for stay as they are, and nobody awaits the promise. Of any
state. -/
theorem C26_interrupt {s : St} {a r : Nat} {w : Aw} {R : Rec} (hw : s.aw a = some w) (hr : w.self = r)
    (hR : s.recv r = some R) (ha : R.awaited = some a) (hu : s.ub = false) (hc : s.can (.interrupt a) = true) :
    (s.step (.interrupt a)).log = (a, .err .detached) :: s.log ∧
    (s.step (.interrupt a)).frame = s.frame ∧
    (s.step (.interrupt a)).signals = s.signals ∧
    (s.step (.interrupt a)).killed = s.killed ∧
    (s.step (.interrupt a)).recv = upd s.recv r (some { R with awaited := none }) ∧
    (s.step (.interrupt a)).ub = false := by
  subst hr
  unfold St.step
  rw [if_neg (by simp [hu, hc])]
  simp [St.interrupt, hw, hR, ha, St.resumeAw, hu]

/-- **C26**, awaiting again: an await of a promise whose coroutine goes on, and that
nobody awaits, waits. Together with `C25_before_partial` it gets the outcome; if the
coroutine ended meanwhile, see `C25_after_partial`. -/
theorem C26_again_partial (es : List Ev) (ht : TidyRun {} {} es) {a r c : Nat} {R : Rec}
    (hR : (St.run es).recv r = some R) (hh : (spec es).holds r = .coro c) (he : (spec es).ended c = none)
    (ha : R.awaited = none) (hc : (St.run es).can (.await a r) = true) :
    (St.run (es ++ [.await a r])).recv r = some { R with awaited := some a } ∧
    (St.run (es ++ [.await a r])).log = (St.run es).log ∧ TidyRun {} {} (es ++ [.await a r]) := by
  have h := Inv.run ht
  have hf := h.fit r R hR
  rw [hh] at hf
  obtain ⟨-, hf⟩ := hf
  rw [he] at hf
  simp only at hf
  have : St.run (es ++ [.await a r]) = (St.run es).step (.await a r) := by
    simp [St.run, St.steps]
  rw [this]
  refine ⟨?_, ?_, ?_⟩
  · unfold St.step
    rw [if_neg (by simp [h.ub, hc])]
    simp [St.await, hR, hf.1, ha]
  · unfold St.step
    rw [if_neg (by simp [h.ub, hc])]
    simp [St.await, hR, hf.1, ha]
  · have key : ∀ (es : List Ev) (p : Sp) (s : St) (e : Ev), TidyRun p s es → (s.steps es).can e = true →
        Tidy (p.steps es) (s.steps es) e → TidyRun p s (es ++ [e]) := by
      intro es
      induction es with
      | nil => intro p s e _ h1 h2; exact ⟨h1, h2, trivial⟩
      | cons x es ih => intro p s e h0 h1 h2; exact ⟨h0.1, h0.2.1, ih _ _ _ h0.2.2 h1 h2⟩
    refine key es {} {} _ ht hc ?_
    refine ⟨?_, fun c' => ?_⟩
    · intro h'
      have : Holds.coro c = .husk := hh.symm.trans h'
      simp at this
    · intro h'
      have : Holds.coro c = .zombie c' := hh.symm.trans h'
      simp at this

/-- Interrupted three times, before and after the coroutine ended; every later await
still gets the outcome. -/
example : let es := [.create 0 0, .await 0 0, .interrupt 0, .await 1 0, .interrupt 1, .await 2 0, .finish 0 (.exc 3),
      .await 3 0, .interrupt 2, .await 4 0]
    TidyRun {} {} es ∧ (St.run es).log = [(4, .err (.user 3)), (3, .err (.user 3)), (2, .err (.user 3)),
      (1, .err .detached), (0, .err .detached)] :=
  ⟨tidyRun_of (by decide), by decide⟩

example : let s := St.run [.create 0 0, .await 0 0]
    (s.aw 0).map (·.self) = some 0 ∧ (s.recv 0).map (·.awaited) = some (some 0) ∧ s.can (.interrupt 0) = true := by decide

example : let es := [.create 0 0, .await 0 0, .interrupt 0]
    TidyRun {} {} es ∧ (spec es).holds 0 = .coro 0 ∧ (spec es).ended 0 = none ∧
    ((St.run es).recv 0).map (·.awaited) = some none ∧ (St.run es).can (.await 1 0) = true :=
  ⟨tidyRun_of (by decide), by decide, by decide, by decide, by decide⟩

/-! ## C27 -/

/-- A promise that was moved from. -/
def Holds.left : Holds → Bool
  | .moved | .zombie _ | .husk => true
  | _ => false

/-- **C27** in full: awaiting a promise that was moved from fails with `moved_from`, at
once. -/
def C27 : Prop := ∀ es a r, Legal {} (es ++ [.await a r]) → (St.run es).ub = false →
  ((spec es).holds r).left = true →
  (St.run (es ++ [.await a r])).log = (a, .err .movedFrom) :: (St.run es).log

/-- **C27** for promises moved from by construction before their coroutine ended, also
after it did. -/
theorem C27_construct_partial (es : List Ev) (ht : TidyRun {} {} es) {a r : Nat}
    (hh : (spec es).holds r = .moved) (hc : (St.run es).can (.await a r) = true) :
    (St.run (es ++ [.await a r])).log = (a, .err .movedFrom) :: (St.run es).log := by
  have h := Inv.run ht
  have : St.run (es ++ [.await a r]) = (St.run es).step (.await a r) := by
    simp [St.run, St.steps]
  rw [this]
  cases hR : (St.run es).recv r with
  | none => simp [St.can, hR] at hc
  | some R =>
    have hf := h.fit r R hR
    rw [hh] at hf
    unfold St.step
    rw [if_neg (by simp [h.ub, hc])]
    simp [St.await, hR, hf.1, St.resumeAw, St.getResult, hf.2.2]

example : let es := [.create 0 0, .moveC 0 1, .finish 0 (.val 5)]
    TidyRun {} {} es ∧ (spec es).holds 0 = .moved ∧ (St.run es).can (.await 0 0) = true :=
  ⟨tidyRun_of (by decide), by decide, by decide⟩

/-- **C27** does not hold for assignment: the moved-from promise does not say it is
done, so the await waits, also after the coroutine has ended. -/
theorem C27_assign_violated : ∃ es, TidyRun {} {} es ∧ (spec es).holds 1 = .zombie 1 ∧
    (St.run (es ++ [.await 0 1, .finish 1 (.val 5)])).ub = false ∧
    (spec (es ++ [.await 0 1, .finish 1 (.val 5)])).ended 1 = some (.out (.val 5)) ∧
    ((St.run (es ++ [.await 0 1, .finish 1 (.val 5)])).recv 1).map (·.awaited) = some (some 0) ∧
    (St.run (es ++ [.await 0 1, .finish 1 (.val 5)])).log = [] :=
  ⟨[.create 0 0, .create 1 1, .leave 0, .moveA 0 1], tidyRun_of (by decide), by decide, by decide, by decide, by decide, by decide⟩

/-- **C27** does not hold after the coroutine ended with a value: the await gives the
moved-from value. -/
theorem C27_value_violated : ¬C27 := by
  intro h
  have := h [.create 0 0, .finish 0 (.val 5), .moveC 0 1] 0 0 (by decide) (by decide) (by decide)
  revert this
  decide

/-- Nor after it ended with an exception: the await has no result to give. -/
theorem C27_exception_violated : ∃ es, TidyRun {} {} es ∧ (St.run es).ub = false ∧ (spec es).holds 0 = .husk ∧
    (St.run es).can (.await 0 0) = true ∧ (St.run (es ++ [.await 0 0])).ub = true :=
  ⟨[.create 0 0, .finish 0 (.exc 5), .moveC 0 1], tidyRun_of (by decide), by decide, by decide, by decide, by decide⟩

/-! ## C28 -/

/-- **C28** in full: leaving an attached promise of a running coroutine sends it one
cancellation, anything else sends none, and no history of it is undefined. -/
def C28 : Prop := ∀ es r R, Legal {} (es ++ [.leave r]) → (St.run es).recv r = some R →
  (St.run (es ++ [.leave r])).ub = false ∧
  ∀ c, (St.run (es ++ [.leave r])).signals c = (St.run es).signals c +
    if R.attached = true ∧ (spec es).holds r = .coro c ∧ (spec es).ended c = none then 1 else 0

/-- **C28** for the uses listed at `Tidy`: the first half of destroying or overwriting. -/
theorem C28_signal_partial (es : List Ev) (ht : TidyRun {} {} es) {r : Nat} {R : Rec}
    (hR : (St.run es).recv r = some R) (hs : (spec es).safe r) :
    (St.run (es ++ [.leave r])).ub = false ∧
    (∀ c, (St.run (es ++ [.leave r])).signals c = (St.run es).signals c +
      if R.attached = true ∧ (spec es).holds r = .coro c ∧ (spec es).ended c = none then 1 else 0) ∧
    (St.run (es ++ [.leave r])).recv = (St.run es).recv ∧ (St.run (es ++ [.leave r])).frame = (St.run es).frame := by
  have h := Inv.run ht
  have : St.run (es ++ [.leave r]) = (St.run es).step (.leave r) := by
    simp [St.run, St.steps]
  rw [this]
  unfold St.step
  rw [if_neg (by simp [h.ub, St.can, hR])]
  simp only [St.leave, hR]
  cases ha : R.attached with
  | false => simp [h.ub]
  | true =>
    simp only [if_true, St.cancel, hR, true_and]
    cases hd : R.done with
    | true =>
      simp only [if_true, h.ub, true_and, and_true]
      intro c
      rw [if_neg]
      · rfl
      · rintro ⟨h1, h2⟩
        have := h.going hR h1 h2
        rw [this.2.1] at hd; simp at hd
    | false =>
      obtain ⟨c, f, g1, g2, g3 | g3⟩ := h.refOk hR hd hs
      · have g := h.going hR g3.1 g3.2.1
        simp only [Bool.false_eq_true, if_false, g1, g.2.2.2.2, if_true, h.ub, true_and, and_true, upd_apply]
        intro c'
        by_cases hcc : c' = c
        · subst hcc; simp [g3]
        · rw [if_neg hcc, if_neg]
          · rfl
          · rintro ⟨h1, h2⟩
            rw [g3.1] at h1
            simp only [Holds.coro.injEq] at h1
            exact hcc h1.symm
      · simp only [Bool.false_eq_true, if_false, g1, g2]
        rw [if_neg]
        · refine ⟨h.ub, fun c' => ?_, rfl, rfl⟩
          rw [if_neg]
          · rfl
          · rintro ⟨h1, h2⟩
            rw [g3.1] at h1
            simp at h1
        · intro hfr
          have := (h.frame c f g2).2.2.2 r hfr
          rw [g3.1] at this
          simp at this

/-- **C28**: the second half of destroying sends nothing more and is defined. -/
theorem C28_drop_partial (es : List Ev) (ht : TidyRun {} {} (es ++ [.drop r])) :
    (St.run (es ++ [.drop r])).ub = false ∧ (St.run (es ++ [.drop r])).recv r = none ∧
    (St.run (es ++ [.drop r])).signals = (St.run es).signals ∧
    ∀ c f, (St.run (es ++ [.drop r])).frame c = some f → f.receiver ≠ some r := by
  have h' := Inv.run ht
  have hst : St.run (es ++ [.drop r]) = (St.run es).step (.drop r) := by
    simp [St.run, St.steps]
  have hcan : (St.run es).ub = false ∧ (St.run es).can (.drop r) = true := by
    have key : ∀ (es : List Ev) (p : Sp) (s : St) (e : Ev), TidyRun p s (es ++ [e]) →
        TidyRun p s es ∧ (s.steps es).can e = true := by
      intro es
      induction es with
      | nil => intro p s e h; exact ⟨trivial, h.1⟩
      | cons x es ih => intro p s e h; have := ih _ _ _ h.2.2; exact ⟨⟨h.1, h.2.1, this.1⟩, this.2⟩
    have := key es {} {} _ ht
    exact ⟨(Inv.run this.1).ub, this.2⟩
  have hx : (St.run (es ++ [.drop r])).recv r = none ∧ (St.run (es ++ [.drop r])).signals = (St.run es).signals := by
    have hu := h'.ub
    rw [hst] at hu ⊢
    unfold St.step at hu ⊢
    rw [if_neg (by simp [hcan])] at hu ⊢
    simp only [St.destroyRec] at hu ⊢
    split at hu
    · simp at hu
    · split at hu
      · simp [*]
      · split at hu
        · simp at hu
        · split at hu
          · simp at hu
          · simp [*]
  refine ⟨h'.ub, hx.1, hx.2, ?_⟩
  intro c f hf hr
  have := ((h'.frame c f hf).2.2.2 r hr).2
  rw [hx.1] at this
  simp at this

/-- **C28**: a coroutine whose promise is gone changes no promise when it ends. Of any
state. -/
theorem C28_later {s : St} {c : Nat} {f : Frame} {o : Out} (hf : s.frame c = some f) (hr : f.receiver = none)
    (hu : s.ub = false) : (s.step (.finish c o)).recv = s.recv ∧ (s.step (.finish c o)).ub = false := by
  unfold St.step
  split
  · exact ⟨rfl, hu⟩
  · cases o <;> simp [St.finish, hf, hr, hu]

/-- `leave` is the only event after which an object is between `leave` and `drop`. -/
theorem leaving_step (s : St) (e : Ev) (r : Nat) (h : (s.step e).leaving r = true) :
    e = .leave r ∨ (s.leaving r = true ∧ (s.ub = true ∨ s.can e = false ∨ (e ≠ .drop r ∧ ∀ r', e ≠ .moveA r r'))) := by
  have aw : ∀ (s : St) (a : Nat), (s.resumeAw a).leaving = s.leaving := by
    intro s a; unfold St.resumeAw; repeat' split
    all_goals rfl
  have can : ∀ (s : St) (r : Nat), (s.cancel r).leaving = s.leaving := by
    intro s r; unfold St.cancel; repeat' split
    all_goals rfl
  have unl : ∀ (s : St) (r : Nat), (s.unlink r).leaving = s.leaving := by
    intro s r; unfold St.unlink; repeat' split
    all_goals rfl
  unfold St.step at h
  split at h
  · rename_i hg
    right
    refine ⟨h, ?_⟩
    cases hu : s.ub with
    | true => exact .inl rfl
    | false => right; left; simpa [hu] using hg
  · cases e with
    | leave q =>
      by_cases hq : q = r
      · left; rw [hq]
      · right
        refine ⟨?_, .inr (.inr ⟨by simp, by simp⟩)⟩
        have hq' : ¬ r = q := fun h => hq h.symm
        simp only [St.leave] at h
        split at h
        · exact h
        · split at h
          · rw [can] at h; simpa [hq'] using h
          · simpa [hq'] using h
    | drop q =>
      right
      have hd : ∀ s : St, (s.destroyRec q).leaving = s.leaving := by
        intro s; unfold St.destroyRec; repeat' split
        all_goals rfl
      rw [hd] at h
      by_cases hq : r = q
      · simp [hq] at h
      · refine ⟨by simpa [hq] using h, .inr (.inr ⟨fun h' => ?_, by simp⟩)⟩
        simp only [Ev.drop.injEq] at h'; exact hq h'.symm
    | moveA q q' =>
      right
      have hd : ∀ s : St, (s.moveAssign q q').leaving = s.leaving := by
        intro s; unfold St.moveAssign
        dsimp only
        repeat' split
        all_goals exact unl s q
      rw [hd] at h
      by_cases hq : r = q
      · simp [hq] at h
      · refine ⟨by simpa [hq] using h, .inr (.inr ⟨by simp, fun r' h' => ?_⟩)⟩
        simp only [Ev.moveA.injEq] at h'; exact hq h'.1.symm
    | create c q => exact .inr ⟨h, .inr (.inr ⟨by simp, by simp⟩)⟩
    | noop q v => exact .inr ⟨h, .inr (.inr ⟨by simp, by simp⟩)⟩
    | finish c o =>
      refine .inr ⟨?_, .inr (.inr ⟨by simp, by simp⟩)⟩
      have hd : (s.finish c o).leaving = s.leaving := by
        unfold St.finish; repeat' split
        all_goals dsimp only
        all_goals repeat' split
        all_goals first | rfl | rw [aw]
      rw [hd] at h; exact h
    | await a q =>
      refine .inr ⟨?_, .inr (.inr ⟨by simp, by simp⟩)⟩
      have hd : (s.await a q).leaving = s.leaving := by
        unfold St.await; repeat' split
        all_goals first | rfl | rw [aw]
      rw [hd] at h; exact h
    | interrupt a =>
      refine .inr ⟨?_, .inr (.inr ⟨by simp, by simp⟩)⟩
      have hd : (s.interrupt a).leaving = s.leaving := by
        unfold St.interrupt; repeat' split
        all_goals dsimp only
        all_goals repeat' split
        all_goals first | rfl | rw [aw]
      rw [hd] at h; exact h
    | moveC q q' =>
      refine .inr ⟨?_, .inr (.inr ⟨by simp, by simp⟩)⟩
      have hd : (s.moveConstruct q q').leaving = s.leaving := by
        unfold St.moveConstruct; repeat' split
        all_goals rfl
      rw [hd] at h; exact h
    | detach q =>
      refine .inr ⟨?_, .inr (.inr ⟨by simp, by simp⟩)⟩
      have hd : (s.setAttached q false).leaving = s.leaving := by unfold St.setAttached; split <;> rfl
      rw [hd] at h; exact h
    | attach q =>
      refine .inr ⟨?_, .inr (.inr ⟨by simp, by simp⟩)⟩
      have hd : (s.setAttached q true).leaving = s.leaving := by unfold St.setAttached; split <;> rfl
      rw [hd] at h; exact h
    | cancel q =>
      refine .inr ⟨?_, .inr (.inr ⟨by simp, by simp⟩)⟩
      rw [can] at h; exact h
    | kill c =>
      refine .inr ⟨?_, .inr (.inr ⟨by simp, by simp⟩)⟩
      have hd : (s.kill c).leaving = s.leaving := by
        unfold St.kill; repeat' split
        all_goals rfl
      rw [hd] at h; exact h
    | get q =>
      refine .inr ⟨?_, .inr (.inr ⟨by simp, by simp⟩)⟩
      dsimp only at h
      split at h
      · exact h
      · split at h
        · split at h <;> exact h
        · exact h

/-- **C28**: no promise is destroyed or overwritten without having been left just for that, which is when its
coroutine is cancelled (`C28_signal_partial`). -/
theorem C28_left (es : List Ev) (r : Nat) (hl : Legal {} es) (hu : (St.run es).ub = false)
    (hd : (St.run es).can (.drop r) = true ∨ ∃ r', (St.run es).can (.moveA r r') = true) :
    ∃ a b, es = a ++ .leave r :: b ∧ .drop r ∉ b ∧ ∀ r', .moveA r r' ∉ b := by
  have hlv : (St.run es).leaving r = true := by
    rcases hd with h | ⟨r', h⟩
    · simp only [St.can, Bool.and_eq_true] at h; exact h.1
    · simp only [St.can, Bool.and_eq_true] at h; exact h.1.1.1
  clear hd
  have key : ∀ (es : List Ev) (s : St), Legal s es → (s.steps es).ub = false → (s.steps es).leaving r = true →
      (s.leaving r = true ∧ .drop r ∉ es ∧ ∀ r', .moveA r r' ∉ es) ∨
      ∃ a b, es = a ++ .leave r :: b ∧ .drop r ∉ b ∧ ∀ r', .moveA r r' ∉ b := by
    intro es
    induction es with
    | nil => intro s _ _ h; exact .inl ⟨h, by simp, by simp⟩
    | cons e es ih =>
      intro s hl hu h
      rcases ih (s.step e) hl.2 hu h with ⟨h1, h2, h3⟩ | ⟨a, b, rfl, h2, h3⟩
      · rcases leaving_step s e r h1 with rfl | ⟨h4, h5⟩
        · exact .inr ⟨[], es, rfl, h2, h3⟩
        · rcases h5 with h5 | h5 | h5
          · have hub : ∀ (es : List Ev) (s : St), s.ub = true → (s.steps es).ub = true := by
              intro es
              induction es with
              | nil => intro s h; exact h
              | cons x es ih => intro s h; exact ih _ (by unfold St.step; rw [if_pos (by simp [h])]; exact h)
            have := hub (e :: es) s h5
            rw [hu] at this; cases this
          · rw [hl.1] at h5; cases h5
          · refine .inl ⟨h4, ?_, fun r' => ?_⟩
            · simp only [List.mem_cons, not_or]; exact ⟨fun h => h5.1 h.symm, h2⟩
            · simp only [List.mem_cons, not_or]; exact ⟨fun h => h5.2 r' h.symm, h3 r'⟩
      · exact .inr ⟨e :: a, b, rfl, h2, h3⟩
  rcases key es {} hl hu hlv with h | h
  · cases h.1
  · exact h

example : Legal {} [.create 0 0, .leave 0] ∧ (St.run [.create 0 0, .leave 0]).can (.drop 0) = true ∧
    (St.run [.create 0 0]).can (.drop 0) = false := by decide

/-- An attached promise is overwritten, a detached one destroyed, one is moved and
destroyed twice; then all coroutines end. -/
def drops : List Ev :=
  [.create 0 0, .create 1 1, .create 2 2, .leave 0, .moveA 0 1, .detach 2, .leave 2, .drop 2, .moveC 0 3,
   .leave 0, .drop 0, .leave 3, .drop 3, .leave 1, .drop 1, .finish 0 (.val 1), .finish 1 (.val 2), .finish 2 (.val 3)]

example : TidyRun {} {} drops := tidyRun_of (by decide)

example : (St.run drops).signals 0 = 1 ∧ (St.run drops).signals 1 = 1 ∧ (St.run drops).signals 2 = 0 ∧
    (St.run drops).frame 0 = none ∧ (St.run drops).ub = false := by decide

example : ((St.run (drops.take 11)).recv 3).map (·.attached) = some true ∧
    (spec (drops.take 11)).holds 3 = .coro 1 ∧ (spec (drops.take 11)).ended 1 = none := by decide

example : ((St.run (drops.take 13)).frame 1).map (·.receiver) = some none := by decide

/-- **C28** does not hold in full: a promise that was moved from by assignment does not
know that the coroutine has ended. Destroying it reads the frame, which is gone. -/
theorem C28_zombie_violated : ∃ es, Legal {} es ∧ (St.run es).ub = true ∧
    es = [.create 0 0, .create 1 1, .leave 0, .moveA 0 1, .finish 1 (.val 5), .leave 1, .drop 1] :=
  ⟨_, by decide, by decide, rfl⟩

/-- The same of a promise attached again, so that `leave` does it. -/
theorem C28_violated : ¬C28 := by
  intro h
  have hR : ∃ R, (St.run [.create 0 0, .create 1 1, .leave 0, .moveA 0 1, .attach 1, .finish 1 (.val 5)]).recv 1 = some R :=
    ⟨_, rfl⟩
  obtain ⟨R, hR⟩ := hR
  have := (h _ 1 R (by decide) hR).1
  revert this
  decide

/-- Assigning to a promise whose coroutine has ended, `p = f()` in a loop, uses the
frame that is gone. -/
theorem C28_assign_violated : ∃ es, Legal {} es ∧ (St.run es).ub = true ∧
    es = [.create 0 0, .finish 0 (.val 5), .create 1 1, .leave 0, .moveA 0 1] :=
  ⟨_, by decide, by decide, rfl⟩

/-- Moving twice more from a promise that was moved from by assignment makes the
coroutine report to the wrong one: its promise is never told and the await of it never
ends. -/
theorem C28_twice_violated : ∃ es, Legal {} es ∧ (St.run es).ub = false ∧
    (spec es).holds 0 = .coro 1 ∧ (spec es).ended 1 = some (.out (.val 5)) ∧ (spec es).target 0 = .coro 1 ∧
    ((St.run es).recv 0).map (·.awaited) = some (some 0) ∧ (St.run es).log = [] :=
  ⟨[.create 0 0, .create 1 1, .leave 0, .moveA 0 1, .create 2 2, .leave 2, .moveA 2 1, .await 0 0, .moveC 1 3,
    .finish 1 (.val 5)],
    by decide, by decide, by decide, by decide, by decide, by decide, by decide⟩

end Cobalt.Prom
