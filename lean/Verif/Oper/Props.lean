import Verif.Oper.Lemmas

/-!
# C33 and C34: awaiting an asio operation
-/
namespace Cobalt.Oper

/-! ## C34 -/

/-- Work that runs other immediate work and then invokes the handler. -/
def nested : Act := .exec (.seq (.exec .skip) (.complete 1))

/-- C34 does not hold: the inner work leaves the flag at `initiating`, so that the handler
resumes the coroutine inside its own `await_suspend`. -/
theorem C34_violated : ¬ C34Holds := by
  intro h
  exact absurd (h nested 1 (by decide)) (by decide)

/-- When exactly this happens, for every nesting of immediate work: the handler is invoked
by work that has run other immediate work before. It is always undefined behaviour.
Exceptions that leave immediate work are not covered (see `C33_throw_violated`). -/
theorem C34_partial (a : Act) (v : Nat) (h : fate false a = some (.completed v))
    (ht : throwsFromWork a = false) :
    ((S.suspend a).early = true ↔ (spoiled false false a).1 = true) ∧
    ((S.suspend a).early = true → (S.suspend a).ub = true) := by
  have e := eval_ends a false false _ h ht
  simp only [Ends] at e
  have hmk : mk (fl false false) = { flag := .initiating, holder := .held, init := true } := rfl
  rw [hmk] at e
  split at e
  · rename_i hb
    obtain ⟨e1, e2, e3⟩ := e
    generalize hs : eval a { flag := .initiating, holder := .held, init := true } = s at *
    have hd : s.drop.early = s.early ∧ (s.alive = false → s.drop.alive = false) := by
      unfold S.drop
      repeat' split
      all_goals simp_all
    have : (S.suspend a).early = true ∧ (S.suspend a).ub = true := by
      unfold S.suspend
      simp only [hs]
      cases hu : s.ub with
      | true => simp [hu, e1]
      | false =>
        have ha : s.alive = false := by simpa [hu] using e3
        simp [e2, S.initiated, hd.2 ha, hd.1, e1]
    exact ⟨⟨fun _ => hb, fun _ => this.1⟩, fun _ => this.2⟩
  · rename_i hb
    have : (S.suspend a).early = false := by
      unfold S.suspend
      simp only [e]
      simp [mk, S.initiated, S.drop, S.goOn]
    rw [this]
    simp [hb]

example : fate false (.exec (.seq (.exec .skip) (.exec (.complete 4)))) = some (.completed 4) ∧
    spoiled false false (.exec (.seq (.exec .skip) (.exec (.complete 4)))) = (false, true) ∧
    (S.suspend (.exec (.seq (.exec .skip) (.exec (.complete 4))))).returned = [.value 4] := by decide

example : fate false nested = some (.completed 1) ∧ throwsFromWork nested = false ∧
    (spoiled false false nested).1 = true := by decide

/-! ## C33 -/

/-- C33 does not hold: see `C34_violated`. -/
theorem C33_violated : ¬ C33Holds := by
  intro h
  exact absurd (h none nested (.completed 1) none (by decide)).ub (by decide)

/-- An exception that leaves immediate work: the handler, destroyed while unwinding, finds
the flag at `maybe` and destroys the coroutine inside its own `await_suspend`. -/
theorem C33_throw_violated :
    fate false (.exec .throw) = some .thrown ∧ (S.suspend (.exec .throw)).ub = true ∧
    (S.suspend (.exec .throw)).destroyed = true ∧ ¬ Good none (.exec .throw) .thrown none :=
  ⟨by decide, by decide, by decide, fun h => absurd h.ub (by decide)⟩

/-- A handler destroyed during initiation without an exception destroys the coroutine
inside its own `await_suspend`. -/
theorem C33_drop_violated :
    fate false .drop = some .dropped ∧ fate false .skip = some .kept ∧
    ¬ Good none .drop .dropped none ∧ ¬ Good none .skip .kept none :=
  ⟨by decide, by decide, fun h => absurd h.ub (by decide), fun h => absurd h.ub (by decide)⟩

/-- Immediate work throws, the operation catches that and keeps the handler to report the
failure later: the flag stays at `maybe`, and when the handler is invoked the coroutine is
not resumed. -/
theorem C33_lost_violated :
    fate false (.seq (.attempt (.exec .throw)) .store) = some .stored ∧
    (S.await none (.seq (.attempt (.exec .throw)) .store)).suspended = true ∧
    ∀ v, (outcome none (.seq (.attempt (.exec .throw)) .store) (some (.done v))).ub = false ∧
      (outcome none (.seq (.attempt (.exec .throw)) .store) (some (.done v))).holder = .gone ∧
      (outcome none (.seq (.attempt (.exec .throw)) .store) (some (.done v))).returned = [] ∧
      (outcome none (.seq (.attempt (.exec .throw)) .store) (some (.done v))).suspended = true :=
  ⟨by decide, by decide, fun v => by simp [outcome, Later.apply, S.await, S.suspend, eval, S.inline, S.after,
    S.initiated, S.drop, S.later, S.complete]⟩

/-- What holds of C33: the operation completes at once, fails, or keeps the handler for
later; it does not complete from work that has run other immediate work, and no exception
leaves immediate work. -/
theorem C33_partial (ready : Option Nat) (a : Act) (r : End) (l : Option Later)
    (h : fate false a = some r) (hk : r ≠ .kept) (hd : r ≠ .dropped)
    (ht : throwsFromWork a = false) (hs : (spoiled false false a).1 = false) :
    Good ready a r l := by
  have e := eval_ends a false false _ h ht
  have hfl : ∀ k, fl false k = .initiating := fun k => rfl
  rw [hs] at e
  simp only [Ends, hfl] at e
  cases ready with
  | some v =>
    have ho : outcome (some v) a l =
        { result := some v, returned := [.value v], alive := false } := by
      cases l with
      | none => rfl
      | some l => cases l <;> rfl
    refine ⟨by rw [ho], by rw [ho]; rfl, by rw [ho]; rfl, by rw [ho]; rfl⟩
  | none =>
    cases r with
    | kept => exact absurd rfl hk
    | dropped => exact absurd rfl hd
    | completed v =>
      simp only [Bool.false_eq_true, if_false] at e
      have hsus : S.suspend a = { result := some v, flag := .yes, returned := [.value v], alive := false } := by
        unfold S.suspend
        simp only [mk] at e
        simp only [e]
        simp [S.initiated, S.drop, S.goOn]
      have ho : outcome none a l = { result := some v, flag := .yes, returned := [.value v], alive := false } := by
        cases l with
        | none => exact hsus
        | some l => cases l <;> simp [outcome, S.await, hsus, Later.apply, S.later, S.run]
      refine ⟨by rw [ho], by rw [ho]; rfl, ?_, by rw [ho]; rfl⟩
      rw [ho]; simp [S.await, hsus]
    | thrown =>
      have hsus : S.suspend a = { flag := .initiating, returned := [.initFailed], alive := false } := by
        unfold S.suspend
        simp only [mk] at e
        simp only [e]
        simp [S.failed, S.drop]
      have ho : outcome none a l = { flag := .initiating, returned := [.initFailed], alive := false } := by
        cases l with
        | none => exact hsus
        | some l => cases l <;> simp [outcome, S.await, hsus, Later.apply, S.later, S.run]
      refine ⟨by rw [ho], by rw [ho]; rfl, ?_, by rw [ho]; rfl⟩
      rw [ho]; simp [S.await, hsus]
    | stored =>
      have hsus : S.suspend a = { flag := .no, holder := .stored, suspended := true } := by
        unfold S.suspend
        simp only [mk] at e
        simp only [e]
        simp [S.initiated, S.drop]
      cases l with
      | none =>
        constructor <;> simp [outcome, S.await, hsus, expected, expectedGone]
      | some l =>
        cases l <;> constructor <;>
          simp [outcome, S.await, hsus, expected, expectedGone, Later.apply, S.later, S.run, eval, S.complete,
            S.goOn, S.drop, S.inline]

/-- Whatever the operation does, rules or no rules: `co_await` gives at most one result. -/
theorem C33_at_most_once (ready : Option Nat) (a : Act) (later : List (Option Act)) :
    (later.foldl (fun s o => match o with
      | some b => s.later b
      | none => s.run) (S.await ready a)).returned.length ≤ 1 := by
  have : ∀ (later : List (Option Act)) (s : S), Once s → Once (later.foldl (fun s o => match o with
      | some b => s.later b
      | none => s.run) s) := by
    intro later
    induction later with
    | nil => exact fun s h => h
    | cons o later ih =>
      intro s h
      refine ih _ ?_
      cases o with
      | none => exact h.run
      | some b => exact h.later b
  exact (this later _ (Once.await ready a)).1

example : fate false (.seq (.exec (.exec .skip)) .store) = some .stored ∧
    throwsFromWork (.seq (.exec (.exec .skip)) .store) = false ∧
    (spoiled false false (.seq (.exec (.exec .skip)) .store)).1 = false ∧
    (S.await none (.seq (.exec (.exec .skip)) .store)).suspended = true ∧
    (outcome none (.seq (.exec (.exec .skip)) .store) (some (.dispatch 3))).returned = [.value 3] ∧
    (outcome none (.seq (.exec (.exec .skip)) .store) (some (.dispatch 3))).resumed = 1 := by decide

example : fate false (.seq (.attempt (.seq (.exec .skip) .throw)) .throw) = some .thrown ∧
    (outcome none (.seq (.attempt (.seq (.exec .skip) .throw)) .throw) none).returned = [.initFailed] := by decide

end Cobalt.Oper
