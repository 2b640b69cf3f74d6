import Verif.Prom.Props
import Verif.Prom.ExactSpec
/-!
# C25, C27, C28: exactly when

include/boost/cobalt/promise.hpp, include/boost/cobalt/detail/promise.hpp.
-/
namespace Cobalt.Prom

theorem run_snoc (es : List Ev) (e : Ev) : St.run (es ++ [e]) = (St.run es).step e := by
  simp [St.run, St.steps]

/-- **C27**, exactly: awaiting a promise that was moved from fails with `moved_from` at once if and only if it was moved
from by construction and before the coroutine ended (or was moved on in that state). -/
theorem C27_exact (es : List Ev) (ht : TidyRun {} {} es) {a r : Nat} (hh : ((spec es).holds r).left = true)
    (hc : (St.run es).can (.await a r) = true) :
    (St.run (es ++ [.await a r])).log = (a, .err .movedFrom) :: (St.run es).log ↔ (spec es).holds r = .moved := by
  refine ⟨fun hl => ?_, fun h => C27_construct_partial es ht h hc⟩
  have h := Inv.run ht
  rw [run_snoc] at hl
  unfold St.step at hl
  rw [if_neg (by simp [h.ub, hc])] at hl
  cases hR : (St.run es).recv r with
  | none => simp [St.can, hR] at hc
  | some R =>
    have hf := h.fit r R hR
    cases hx : (spec es).holds r with
    | moved => rfl
    | none => rw [hx] at hh; simp [Holds.left] at hh
    | coro c => rw [hx] at hh; simp [Holds.left] at hh
    | ready v => rw [hx] at hh; simp [Holds.left] at hh
    | zombie c =>
      rw [hx] at hf
      simp [St.await, hR, hf.1, hf.2.1] at hl
    | husk =>
      rw [hx] at hf
      obtain ⟨h1, h2, h3⟩ := hf
      cases hr : R.result with
      | none => simp [St.await, hR, h1, St.resumeAw, St.getResult, h3, hr] at hl
      | some o => cases o <;> simp [St.await, hR, h1, St.resumeAw, St.getResult, h3, hr] at hl

/-- **C27**, the other cases: a promise that was moved from by assignment before the coroutine ended makes the await
wait; one that was moved from after it ended makes the await end at once with the value that was moved from, or is
undefined if there was none. -/
theorem C27_otherwise (es : List Ev) (ht : TidyRun {} {} es) {a r : Nat} {R : Rec} (hR : (St.run es).recv r = some R)
    (hc : (St.run es).can (.await a r) = true) :
    (∀ c, (spec es).holds r = .zombie c →
      (St.run (es ++ [.await a r])).log = (St.run es).log ∧
      ((St.run (es ++ [.await a r])).recv r).map (·.awaited) = some (some a)) ∧
    ((spec es).holds r = .husk →
      (R.result = none ∧ (St.run (es ++ [.await a r])).ub = true) ∨
      (R.result ≠ none ∧ ∃ g, (St.run (es ++ [.await a r])).log = (a, g) :: (St.run es).log ∧ ∀ e, g ≠ .err e)) := by
  have h := Inv.run ht
  rw [run_snoc]
  unfold St.step
  rw [if_neg (by simp [h.ub, hc])]
  have hf := h.fit r R hR
  constructor
  · intro c hx
    rw [hx] at hf
    simp [St.await, hR, hf.1, hf.2.1]
  · intro hx
    rw [hx] at hf
    obtain ⟨h1, h2, h3⟩ := hf
    cases hr : R.result with
    | none => simp [St.await, hR, h1, St.resumeAw, St.getResult, h3, hr]
    | some o => cases o <;> simp [St.await, hR, h1, St.resumeAw, St.getResult, h3, hr]

/-- **C25**, exactly: after any history of uses listed at `Tidy`, a use is undefined at once if and only if it is one of
those listed at `Undefined`. -/
theorem C25_undefined_exact (es : List Ev) (ht : TidyRun {} {} es) (e : Ev) (hc : (St.run es).can e = true) :
    (St.run (es ++ [e])).ub = true ↔ Undefined (spec es) (St.run es) e := by
  have h := Inv.run ht
  have tidy : Tidy (spec es) (St.run es) e → ((St.run es).step e).ub = false := fun t => (h.step hc t).ub
  rw [run_snoc]
  have e0 : (St.run es).ub = false := h.ub
  cases e with
  | create c r => simpa [Undefined] using tidy trivial
  | noop r v => simpa [Undefined] using tidy trivial
  | finish c o => simpa [Undefined] using tidy trivial
  | kill c => simpa [Undefined] using tidy trivial
  | detach r => simpa [Undefined] using tidy trivial
  | attach r => simpa [Undefined] using tidy trivial
  | await a r =>
    cases hR : (St.run es).recv r with
    | none => simp [St.can, hR] at hc
    | some R =>
      have hf := h.fit r R hR
      cases hx : (spec es).holds r with
      | husk =>
        rw [hx] at hf
        obtain ⟨h1, h2, h3⟩ := hf
        unfold St.step
        rw [if_neg (by simp [h.ub, hc])]
        cases hr : R.result with
        | none => simp [St.await, hR, h1, St.resumeAw, St.getResult, h3, hr, Undefined, hx]
        | some o => cases o <;> simp [St.await, hR, h1, St.resumeAw, St.getResult, h3, hr, Undefined, hx, e0]
      | zombie c =>
        rw [hx] at hf
        unfold St.step
        rw [if_neg (by simp [h.ub, hc])]
        simp [St.await, hR, hf.1, hf.2.1, Undefined, hx, e0]
      | none => rw [hx] at hf; exact hf.elim
      | coro c => simpa [Undefined, hx] using tidy (by simp [Tidy, hx])
      | ready v => simpa [Undefined, hx] using tidy (by simp [Tidy, hx])
      | moved => simpa [Undefined, hx] using tidy (by simp [Tidy, hx])
  | get r =>
    cases hR : (St.run es).recv r with
    | none => simp [St.can, hR] at hc
    | some R =>
      have hf := h.fit r R hR
      cases hx : (spec es).holds r with
      | husk =>
        rw [hx] at hf
        obtain ⟨h1, h2, h3⟩ := hf
        unfold St.step
        rw [if_neg (by simp [h.ub, hc])]
        cases hr : R.result with
        | none => simp [hR, h1, St.getResult, h3, hr, Undefined, hx]
        | some o => cases o <;> simp [hR, h1, St.getResult, h3, hr, Undefined, hx, e0]
      | zombie c =>
        rw [hx] at hf
        unfold St.step
        rw [if_neg (by simp [h.ub, hc])]
        simp [hR, hf.1, Undefined, hx]
      | none => rw [hx] at hf; exact hf.elim
      | coro c =>
        cases he : (spec es).ended c with
        | none =>
          have hg := h.going hR hx he
          unfold St.step
          rw [if_neg (by simp [h.ub, hc])]
          simp [hR, hg.2.1, Undefined, hx, he]
        | some x => simpa [Undefined, hx, he] using tidy (by simp [Tidy, hx, he])
      | ready v => simpa [Undefined, hx] using tidy (by simp [Tidy, hx])
      | moved => simpa [Undefined, hx] using tidy (by simp [Tidy, hx])
  | interrupt a =>
    cases hw : (St.run es).aw a with
    | none => simp [St.can, hw] at hc
    | some w =>
      cases hR : (St.run es).recv w.self with
      | none => simp [St.can, hw, hR] at hc
      | some R =>
        cases hb : R.awaited with
        | none => simpa [Undefined, hw, hR, hb] using tidy (by intro w' R' b' e1 e2 e3; rw [hw] at e1; cases e1; rw [hR] at e2; cases e2; rw [hb] at e3; cases e3)
        | some b =>
          by_cases hab : b = a
          · simpa [Undefined, hw, hR, hb, hab] using tidy (by intro w' R' b' e1 e2 e3; rw [hw] at e1; cases e1; rw [hR] at e2; cases e2; rw [hb] at e3; cases e3; exact hab)
          · obtain ⟨hB, hk⟩ := h.awaited w.self R b hR hb
            obtain ⟨R', c, h1, h2, h3, h4, h5⟩ := h.pend b _ hB rfl hk
            rw [hR] at h1; cases h1
            have hf := h.fit _ R hR
            rw [h3] at hf
            simp only [Fit, h4] at hf
            unfold St.step
            rw [if_neg (by simp [h.ub, hc])]
            simp [St.interrupt, hw, hR, hb, St.resumeAw, hB, hab, St.getResult, hf.2.2.1, hf.2.2.2.2.1, Undefined]
  | moveC r r' =>
    cases hR : (St.run es).recv r with
    | none => simp [St.can, hR] at hc
    | some R =>
      have hf := h.fit r R hR
      have : ((St.run es).step (.moveC r r')).ub = false := by
        unfold St.step
        rw [if_neg (by simp [h.ub, hc])]
        simp only [St.moveConstruct, hR]
        split
        · rename_i hd
          obtain ⟨c, hx⟩ : ∃ c, (spec es).holds r = .coro c := by
            cases hx : (spec es).holds r <;> rw [hx] at hf <;> simp_all [Fit]
          have he : (spec es).ended c = none := by
            cases he : (spec es).ended c with
            | none => rfl
            | some x =>
              rw [hx] at hf
              simp only [Fit, he] at hf
              rcases x with (_ | _) | _ <;> simp_all
          have hg := h.going hR hx he
          simp [hg.1, hg.2.2.2.2, e0]
        · exact e0
      simpa [Undefined] using this
  | moveA r r' =>
    cases hR : (St.run es).recv r with
    | none => simp [St.can, hR] at hc
    | some R =>
      cases hR' : (St.run es).recv r' with
      | none => simp [St.can, hR, hR'] at hc
      | some R' =>
        have hne : r ≠ r' := by rintro rfl; simp [St.can] at hc
        have hf := h.fit r' R' hR'
        have he' : R'.done = false ∧ R'.exc = none → ∃ c, R'.ref = some c ∧
            (St.run es).frame c = some { receiver := some r', stuck := false } := by
          intro hd
          obtain ⟨c, hx⟩ : ∃ c, (spec es).holds r' = .coro c := by
            cases hx : (spec es).holds r' <;> rw [hx] at hf <;> simp_all [Fit]
          have he : (spec es).ended c = none := by
            cases he : (spec es).ended c with
            | none => rfl
            | some x =>
              rw [hx] at hf
              simp only [Fit, he] at hf
              rcases x with (_ | _) | _ <;> simp_all
          have hg := h.going hR' hx he
          exact ⟨c, hg.1, hg.2.2.2.2⟩
        unfold St.step
        rw [if_neg (by simp [h.ub, hc])]
        have hU : Undefined (spec es) (St.run es) (.moveA r r') ↔ ∃ c, R.ref = some c ∧ (St.run es).frame c = none := by
          simp [Undefined, hR]
        rw [hU]
        simp only [St.moveAssign, St.unlink, hR]
        cases hr : R.ref with
        | none =>
          simp only [e0, Bool.false_eq_true, if_false, hR, hR']
          split
          · rename_i hd
            obtain ⟨c, h1, h2⟩ := he' hd
            simp [h1, h2, e0]
          · simp [e0]
        | some c0 =>
          cases hf0 : (St.run es).frame c0 with
          | none => simp [hf0]
          | some f0 =>
            simp only [hf0]
            by_cases hrc : f0.receiver = some r
            · simp only [hrc, if_true, e0, Bool.false_eq_true, if_false, hR, hR']
              split
              · rename_i hd
                obtain ⟨c, h1, h2⟩ := he' hd
                have hcc : c ≠ c0 := by
                  rintro rfl
                  rw [hf0] at h2; cases h2
                  simp at hrc
                  exact hne hrc.symm
                simp [h1, upd_apply, hcc, h2, e0, hf0]
              · simp [e0, hf0]
            · simp only [hrc, if_false, e0, Bool.false_eq_true, if_false, hR, hR']
              split
              · rename_i hd
                obtain ⟨c, h1, h2⟩ := he' hd
                simp [h1, h2, e0, hf0]
              · simp [e0, hf0]
  | drop r =>
    cases hR : (St.run es).recv r with
    | none => simp [St.can, hR] at hc
    | some R =>
      have hf := h.fit r R hR
      unfold St.step
      rw [if_neg (by simp [h.ub, hc])]
      simp only [St.destroyRec, hR]
      cases hd : R.done with
      | true =>
        have : ∀ c, (spec es).holds r ≠ .zombie c := fun c hx => by
          rw [hx] at hf
          exact absurd hf.1 (by simp [hd])
        simp [Undefined, this, e0]
      | false =>
        simp only [Bool.false_eq_true, if_false]
        by_cases hs : (spec es).safe r
        · obtain ⟨c, f, h1, h2, h3⟩ := h.refOk hR hd hs
          have : ¬ Undefined (spec es) (St.run es) (.drop r) := by
            rintro ⟨c', hx, hn⟩
            rcases h3 with h3 | h3
            · rw [hx] at h3; exact absurd h3.1 (by simp)
            · rw [hx] at h3
              have := h3.1
              cases this
              rw [h2] at hn; cases hn
          simp [h1, h2, e0, this]
        · simp only [Sp.safe, Classical.not_forall] at hs
          obtain ⟨c, hx, hs⟩ := hs
          rw [hx] at hf
          have hr := hf.2.2.2
          cases hf0 : (St.run es).frame c <;> simp [hr, hf0, Undefined, hx, e0]
  | cancel r =>
    cases hR : (St.run es).recv r with
    | none => simp [St.can, hR] at hc
    | some R =>
      have hf := h.fit r R hR
      unfold St.step
      rw [if_neg (by simp [h.ub, hc])]
      simp only [St.cancel, hR]
      cases hd : R.done with
      | true =>
        have : ∀ c, (spec es).holds r ≠ .zombie c := fun c hx => by
          rw [hx] at hf
          exact absurd hf.1 (by simp [hd])
        simp [Undefined, this, e0]
      | false =>
        simp only [Bool.false_eq_true, if_false]
        by_cases hs : (spec es).safe r
        · obtain ⟨c, f, h1, h2, h3⟩ := h.refOk hR hd hs
          have : ¬ Undefined (spec es) (St.run es) (.cancel r) := by
            rintro ⟨c', hx, hn⟩
            rcases h3 with h3 | h3
            · rw [hx] at h3; exact absurd h3.1 (by simp)
            · rw [hx] at h3
              have := h3.1
              cases this
              rw [h2] at hn; cases hn
          simp only [h1, h2, this, iff_false, Bool.not_eq_true]
          split <;> exact e0
        · simp only [Sp.safe, Classical.not_forall] at hs
          obtain ⟨c, hx, hs⟩ := hs
          rw [hx] at hf
          have hr := hf.2.2.2
          cases hf0 : (St.run es).frame c with
          | none => simp [hr, hf0, Undefined, hx]
          | some f =>
            have : ¬ Undefined (spec es) (St.run es) (.cancel r) := by
              rintro ⟨c', hx', hn⟩
              rw [hx] at hx'; cases hx'
              rw [hf0] at hn; cases hn
            simp only [hr, hf0, this, iff_false, Bool.not_eq_true]
            split <;> exact e0
  | leave r =>
    cases hR : (St.run es).recv r with
    | none => simp [St.can, hR] at hc
    | some R =>
      have hf := h.fit r R hR
      unfold St.step
      rw [if_neg (by simp [h.ub, hc])]
      simp only [St.leave, hR]
      cases ha : R.attached with
      | false => simp [Undefined, hR, ha, e0]
      | true =>
        have hU : Undefined (spec es) (St.run es) (.leave r) ↔ ∃ c, (spec es).holds r = .zombie c ∧ (St.run es).frame c = none := by
          simp [Undefined, hR, ha]
        rw [hU]
        simp only [if_true, St.cancel, hR]
        cases hd : R.done with
        | true =>
          have : ∀ c, (spec es).holds r ≠ .zombie c := fun c hx => by
            rw [hx] at hf
            exact absurd hf.1 (by simp [hd])
          simp [this, e0]
        | false =>
          simp only [Bool.false_eq_true, if_false]
          by_cases hs : (spec es).safe r
          · obtain ⟨c, f, h1, h2, h3⟩ := h.refOk hR hd hs
            have : ¬ ∃ c, (spec es).holds r = .zombie c ∧ (St.run es).frame c = none := by
              rintro ⟨c', hx, hn⟩
              rcases h3 with h3 | h3
              · rw [hx] at h3; exact absurd h3.1 (by simp)
              · rw [hx] at h3
                have := h3.1
                cases this
                rw [h2] at hn; cases hn
            simp only [h1, h2, this, iff_false, Bool.not_eq_true]
            split <;> exact e0
          · simp only [Sp.safe, Classical.not_forall] at hs
            obtain ⟨c, hx, hs⟩ := hs
            rw [hx] at hf
            have hr := hf.2.2.2
            cases hf0 : (St.run es).frame c with
            | none => simp [hr, hf0, hx]
            | some f =>
              have : ¬ ∃ c, (spec es).holds r = .zombie c ∧ (St.run es).frame c = none := by
                rintro ⟨c', hx', hn⟩
                rw [hx] at hx'; cases hx'
                rw [hf0] at hn; cases hn
              simp only [hr, hf0, this, iff_false, Bool.not_eq_true]
              split <;> exact e0

/-- **C28**, exactly: leaving a promise after a history of uses listed at `Tidy` is undefined if and only if it is
attached, was moved from by assignment, and the coroutine is gone. -/
theorem C28_leave_exact (es : List Ev) (ht : TidyRun {} {} es) {r : Nat} {R : Rec} (hR : (St.run es).recv r = some R) :
    (St.run (es ++ [.leave r])).ub = true ↔
      R.attached = true ∧ ∃ c, (spec es).holds r = .zombie c ∧ (St.run es).frame c = none := by
  rw [C25_undefined_exact es ht _ (by simp [St.can, hR])]
  simp [Undefined, hR]

/-- **C28**, exactly: so is destroying it, attached or not. -/
theorem C28_drop_exact (es : List Ev) (ht : TidyRun {} {} es) {r : Nat} (hc : (St.run es).can (.drop r) = true) :
    (St.run (es ++ [.drop r])).ub = true ↔ ∃ c, (spec es).holds r = .zombie c ∧ (St.run es).frame c = none :=
  C25_undefined_exact es ht _ hc

/-- **C28**, exactly: assigning to a promise is undefined if and only if the coroutine it was made for is gone. -/
theorem C28_assign_exact (es : List Ev) (ht : TidyRun {} {} es) {r r' : Nat}
    (hc : (St.run es).can (.moveA r r') = true) :
    (St.run (es ++ [.moveA r r'])).ub = true ↔
      ∃ R c, (St.run es).recv r = some R ∧ R.ref = some c ∧ (St.run es).frame c = none :=
  C25_undefined_exact es ht _ hc

/-- Histories that meet the hypotheses, with both answers. -/
example : let es := [.create 0 0, .create 1 1, .leave 0, .moveA 0 1, .attach 1]
    TidyRun {} {} es ∧ (St.run (es ++ [.leave 1])).ub = false ∧ ((spec es).holds 1).left = true :=
  ⟨tidyRun_of (by decide), by decide, by decide⟩

example : let es := [.create 0 0, .create 1 1, .leave 0, .moveA 0 1, .attach 1, .finish 1 (.val 3)]
    TidyRun {} {} es ∧ (St.run (es ++ [.leave 1])).ub = true ∧ (spec es).holds 1 = .zombie 1 ∧ (St.run es).frame 1 = none :=
  ⟨tidyRun_of (by decide), by decide, by decide, by decide⟩

example : let es := [.create 0 0, .finish 0 (.exc 3), .create 1 1, .leave 0]
    TidyRun {} {} es ∧ (St.run es).can (.moveA 0 1) = true ∧ (St.run (es ++ [.moveA 0 1])).ub = true :=
  ⟨tidyRun_of (by decide), by decide, by decide⟩

example : let es := [.create 0 0, .finish 0 (.val 3), .moveC 0 1]
    TidyRun {} {} es ∧ (St.run es).can (.await 0 0) = true ∧ (St.run (es ++ [.await 0 0])).log = [(0, .moved)] :=
  ⟨tidyRun_of (by decide), by decide, by decide⟩

end Cobalt.Prom
