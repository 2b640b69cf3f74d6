import Verif.Disp.Race
/-! The generator of the dispatcher. -/
namespace Cobalt.Disp
open Cobalt.Comb (Ev Out)
open Prom (upd upd_apply)

/-- It runs, and has nothing (`res = none`), or is suspended at the yield of `m` and nobody waits. -/
structure GI (g : Gen.St) (aw : Option Nat) (res : Option Nat) : Prop where
  ub : g.ub = false
  void : g.void = true
  recv : g.recv = true
  lazy : g.lazy = false
  buffer : g.buffer = none
  exc : g.exc = none
  done : g.done = false
  awaited : g.awaited = aw
  result : g.result = res
  aws : ∀ a, aw = some a → g.aw a = some { push := 0 }
  ph : (res = none ∧ ((g.phase = .running ∧ g.pushed = none) ∨ (g.phase = .posted ∧ g.pushed ≠ none))) ∨
    (res ≠ none ∧ g.phase = .parked ∧ g.pushed = none ∧ aw = none)

theorem GI.init : GI { void := true } none none := by
  constructor <;> simp

/-- A message is there: it is handed over at once. -/
theorem GI.ready {g : Gen.St} {m : Nat} (h : GI g none (some m)) (a : Nat) :
    GI (g.await a 0) none none ∧ genOut g (g.await a 0) = some (.ok m) := by
  obtain ⟨ub, void, recv, lazy, buffer, exc, done, awaited, result, aws, ph⟩ := h
  simp only [reduceCtorEq, false_and, ne_eq, not_false_eq_true, true_and, false_or] at ph
  obtain ⟨p1, p2, -⟩ := ph
  simp only [Gen.St.await, Gen.St.ready, result, Gen.St.resumeAw, exc, p2, Gen.St.takeResult, Gen.St.give, upd_apply,
    Option.isSome_some, Bool.or_true, Bool.true_or, if_true, ne_eq, not_true_eq_false, if_false, p1, lazy, and_self, buffer]
  refine ⟨?_, by simp [genOut]⟩
  constructor <;> simp_all

/-- Nothing is there. -/
theorem GI.wait {g : Gen.St} (h : GI g none none) (a : Nat) :
    GI (g.await a 0) (some a) none ∧ genOut g (g.await a 0) = none := by
  obtain ⟨ub, void, recv, lazy, buffer, exc, done, awaited, result, aws, ph⟩ := h
  have hp : g.phase ≠ .parked := by rcases ph with ⟨-, ⟨p, -⟩ | ⟨p, -⟩⟩ | ⟨p, -⟩ <;> simp_all
  simp only [Gen.St.await, Gen.St.ready, result, exc, done, awaited, lazy, Option.isSome_none, Bool.or_self,
    Bool.false_eq_true, if_false, ne_eq, not_true_eq_false, false_and, hp]
  refine ⟨?_, by simp [genOut]⟩
  constructor <;> simp_all

/-- Who waits is told. -/
theorem GI.int {g : Gen.St} {a : Nat} (h : GI g (some a) none) :
    GI (g.interrupt a) none none ∧ genOut g (g.interrupt a) = some (.err 0) := by
  obtain ⟨ub, void, recv, lazy, buffer, exc, done, awaited, result, aws, ph⟩ := h
  have haw := aws a rfl
  simp only [Gen.St.interrupt, haw, Gen.St.wake, awaited, Gen.St.resumeAw, upd_apply, if_true, Gen.St.give]
  refine ⟨?_, by simp [genOut]⟩
  constructor <;> simp_all

/-- The coroutine yields and nobody waits. -/
theorem GI.hold {g : Gen.St} (h : GI g none none) (hr : g.phase = .running) (m : Nat) :
    GI (g.step (.yield m)) none (some m) ∧ genOut g (g.step (.yield m)) = none := by
  obtain ⟨ub, void, recv, lazy, buffer, exc, done, awaited, result, aws, ph⟩ := h
  have hp : g.pushed = none := by rcases ph with ⟨-, ⟨-, p⟩ | ⟨p, -⟩⟩ | ⟨p, -⟩ <;> simp_all
  simp only [Gen.St.step, ub, Gen.St.can, hr, Gen.St.put, result, recv, Gen.St.suspend, hp, Gen.St.wake, awaited]
  simp only [beq_self_eq_true, Bool.not_true, Bool.or_self, Bool.false_eq_true, if_false, if_true, ne_eq,
    not_true_eq_false, false_and, reduceCtorEq]
  refine ⟨?_, by simp [genOut]⟩
  constructor <;> simp_all

/-- The coroutine yields to the one who waits. -/
theorem GI.give {g : Gen.St} {a : Nat} (h : GI g (some a) none) (hr : g.phase = .running) (m : Nat) :
    GI (g.step (.yield m)) none none ∧ genOut g (g.step (.yield m)) = some (.ok m) := by
  obtain ⟨ub, void, recv, lazy, buffer, exc, done, awaited, result, aws, ph⟩ := h
  have hp : g.pushed = none := by rcases ph with ⟨-, ⟨-, p⟩ | ⟨p, -⟩⟩ | ⟨p, -⟩ <;> simp_all
  have haw := aws a rfl
  simp only [Gen.St.step, ub, Gen.St.can, hr, Gen.St.put, result, recv, Gen.St.suspend, hp, Gen.St.wake, awaited]
  simp only [beq_self_eq_true, Bool.not_true, Bool.or_self, Bool.false_eq_true, if_false, if_true, ne_eq,
    not_true_eq_false, false_and, reduceCtorEq]
  simp only [awaited, Gen.St.resumeAw, haw, exc, if_true, hp, ne_eq, not_true_eq_false, if_false, Gen.St.takeResult,
    Gen.St.give, lazy, and_self, buffer]
  refine ⟨?_, by simp [genOut]⟩
  constructor <;> simp_all

/-- The executor resumes it. -/
theorem GI.run {g : Gen.St} {aw res : Option Nat} (h : GI g aw res) : GI (g.step .run) aw res := by
  obtain ⟨ub, void, recv, lazy, buffer, exc, done, awaited, result, aws, ph⟩ := h
  unfold Gen.St.step
  by_cases hp : g.phase = .posted
  · have hq : g.pushed ≠ none := by rcases ph with ⟨-, ⟨p, -⟩ | ⟨-, p⟩⟩ | ⟨-, p, -⟩ <;> simp_all
    obtain ⟨v, hv⟩ := Option.ne_none_iff_exists'.1 hq
    simp only [ub, Gen.St.can, hp, recv, Gen.St.bodyResume, hv, beq_self_eq_true, Bool.not_true, Bool.or_self,
      Bool.false_eq_true, if_false, if_true]
    constructor <;> simp_all
  · have : (g.ub || !g.can .run) = true := by simp [Gen.St.can, hp]
    rw [if_pos this]
    exact ⟨ub, void, recv, lazy, buffer, exc, done, awaited, result, aws, ph⟩

end Cobalt.Disp
