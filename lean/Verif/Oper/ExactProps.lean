import Verif.Oper.ExactLemmas

/-!
# C33 and C34, exactly

Exceptions that leave immediate work are covered as well.
-/
namespace Cobalt.Oper

/-- C33, exactly: which operations `co_await` handles as it should, whatever immediate work
they run in whatever nesting, whatever exceptions they let out of it or swallow, and
whatever happens to a handler they keep for later. -/
theorem C33_exact (a : Act) (r : End) (l : Option Later) (h : fate false a = some r) :
    Good none a r l ↔ Right (mark false false a) r l := by
  have e := eval_endsX a false false r h
  have h0 : mk (fm false) = mk .initiating := rfl
  rw [h0] at e
  cases r with
  | kept =>
    refine ⟨fun hg => ?_, fun hr => hr.elim⟩
    refine absurd hg (bad_of_ub ?_ _ l)
    simp only [EndsX, mk] at e
    unfold S.suspend
    simp only [e]
    cases mark false false a <;> simp [S.initiated, S.drop, fm]
  | dropped =>
    refine ⟨fun hg => ?_, fun hr => hr.elim⟩
    exact absurd hg (bad_of_ub (gone_ub e.1 e.2).1 _ l)
  | completed v =>
    cases hm : mark false false a with
    | false =>
      rw [hm] at e
      simp only [EndsX, Bool.false_eq_true, if_false] at e
      refine ⟨fun hg => absurd hg (bad_of_ub (gone_ub e.2.1 e.2.2).1 _ l), fun hr => by simp [Right] at hr⟩
    | true =>
      rw [hm] at e
      simp only [EndsX, if_true] at e
      have hsus := suspend_completed e
      have ho : outcome none a l = { result := some v, flag := .yes, returned := [.value v], alive := false } := by
        cases l with
        | none => exact hsus
        | some l => cases l <;> simp [outcome, S.await, hsus, Later.apply, S.later, S.run]
      refine ⟨fun _ => rfl, fun _ => ⟨by rw [ho], by rw [ho]; rfl, ?_, by rw [ho]; rfl⟩⟩
      rw [ho]; simp [S.await, hsus]
  | thrown =>
    cases hm : mark false false a with
    | true =>
      rw [hm] at e
      exact ⟨fun hg => absurd hg (bad_of_ub (suspend_thrown_on e) _ l), fun hr => by simp [Right] at hr⟩
    | false =>
      rw [hm] at e
      have hsus := suspend_thrown e
      have ho : outcome none a l = { flag := .initiating, returned := [.initFailed], alive := false } := by
        cases l with
        | none => exact hsus
        | some l => cases l <;> simp [outcome, S.await, hsus, Later.apply, S.later, S.run]
      refine ⟨fun _ => rfl, fun _ => ⟨by rw [ho], by rw [ho]; rfl, ?_, by rw [ho]; rfl⟩⟩
      rw [ho]; simp [S.await, hsus]
  | stored =>
    have hsus := suspend_stored _ e
    cases hm : mark false false a with
    | false =>
      rw [hm] at hsus
      refine ⟨fun _ => by cases l with
        | none => trivial
        | some l => cases l <;> trivial, fun _ => ?_⟩
      cases l with
      | none => constructor <;> simp [outcome, S.await, hsus, expected, expectedGone]
      | some l =>
        cases l <;> constructor <;>
          simp [outcome, S.await, hsus, expected, expectedGone, Later.apply, S.later, S.run, eval, S.complete,
            S.goOn, S.drop, S.inline]
    | true =>
      rw [hm] at hsus
      cases l with
      | none =>
        refine ⟨fun _ => trivial, fun _ => ?_⟩
        constructor <;> simp [outcome, S.await, hsus, expected, expectedGone]
      | some l =>
        cases l with
        | abandon =>
          refine ⟨fun _ => trivial, fun _ => ?_⟩
          constructor <;> simp [outcome, S.await, hsus, expected, expectedGone, Later.apply, S.later, eval, S.drop]
        | done v =>
          refine ⟨fun hg => ?_, fun hr => by simp [Right] at hr⟩
          have := hg.returned
          simp [outcome, S.await, hsus, expected, Later.apply, S.later, eval, S.complete, S.drop] at this
        | dispatch v =>
          refine ⟨fun hg => ?_, fun hr => by simp [Right] at hr⟩
          have := hg.returned
          simp [outcome, S.await, hsus, expected, Later.apply, S.later, S.run, eval, S.complete, S.drop,
            S.inline, S.after] at this

/-- C34, exactly: the handler resumes the coroutine inside its own `await_suspend` just if
it is invoked with the indicator off. -/
theorem C34_exact (a : Act) (v : Nat) (h : fate false a = some (.completed v)) :
    (S.suspend a).early = !mark false false a := by
  have e := eval_endsX a false false _ h
  have h0 : mk (fm false) = mk .initiating := rfl
  rw [h0] at e
  cases hm : mark false false a with
  | true =>
    rw [hm] at e
    simp only [EndsX, if_true] at e
    rw [suspend_completed e]; rfl
  | false =>
    rw [hm] at e
    simp only [EndsX, Bool.false_eq_true, if_false] at e
    rw [(gone_ub e.2.1 e.2.2).2, e.1]; rfl

/-- A `ready` that stores a result settles it, whatever initiation would do. -/
theorem C33_ready (a : Act) (r : End) (v : Nat) (l : Option Later) : Good (some v) a r l := by
  have ho : outcome (some v) a l = { result := some v, returned := [.value v], alive := false } := by
    cases l with
    | none => rfl
    | some l => cases l <;> rfl
  exact ⟨by rw [ho], by rw [ho]; rfl, by rw [ho]; rfl, by rw [ho]; rfl⟩

/-- The result is lost just if the indicator was left on: the operation keeps the handler
and invokes it later, and the coroutine sleeps on. -/
theorem C33_lost_exact (a : Act) (v : Nat) (h : fate false a = some .stored) :
    ((outcome none a (some (.done v))).returned = [] ↔ mark false false a = true) ∧
    ((outcome none a (some (.done v))).suspended = mark false false a) := by
  have e := eval_endsX a false false _ h
  have h0 : mk (fm false) = mk .initiating := rfl
  rw [h0] at e
  have hsus := suspend_stored _ e
  cases hm : mark false false a <;> rw [hm] at hsus <;>
    simp [outcome, S.await, hsus, Later.apply, S.later, eval, S.complete, S.drop, S.goOn]

/-- Work that lets an exception out and is followed by an invocation: the inner work had
left the indicator off, the exception of the second leaves it on. -/
def mended : Act := .exec (.seq (.exec .skip) (.seq (.attempt (.exec .throw)) (.complete 7)))

example : fate false mended = some (.completed 7) ∧ throwsFromWork mended = true ∧
    mark false false mended = true ∧
    (S.suspend mended).returned = [.value 7] := by decide

/-- Work that runs other immediate work and then invokes the handler. -/
def nested1 : Act := .exec (.seq (.exec .skip) (.complete 1))

example : fate false nested1 = some (.completed 1) ∧ mark false false nested1 = false ∧
    (S.suspend nested1).early = true := ⟨by decide, by decide, by decide⟩

example : fate false (.seq (.attempt (.exec .throw)) .store) = some .stored ∧
    mark false false (.seq (.attempt (.exec .throw)) .store) = true ∧
    fate false (.exec (.seq (.attempt (.exec .throw)) .store)) = some .stored ∧
    mark false false (.exec (.seq (.attempt (.exec .throw)) .store)) = false ∧
    (outcome none (.exec (.seq (.attempt (.exec .throw)) .store)) (some (.done 5))).returned = [.value 5] := by
  decide

example : fate false (.seq (.attempt (.exec .throw)) .throw) = some .thrown ∧
    mark false false (.seq (.attempt (.exec .throw)) .throw) = true ∧
    (S.suspend (.seq (.attempt (.exec .throw)) .throw)).ub = true ∧
    fate false (.seq (.attempt (.exec .throw)) (.seq (.exec .skip) .throw)) = some .thrown ∧
    (S.suspend (.seq (.attempt (.exec .throw)) (.seq (.exec .skip) .throw))).returned = [.initFailed] := by
  decide

end Cobalt.Oper
