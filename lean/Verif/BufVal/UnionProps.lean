import Verif.BufVal.Props
/-!
# C126: sequences made of arrays, with io_uring and the standard taken at its word
-/
namespace Cobalt.BufVal

open Io (Buf)

/-- A sequence made of an array that has buffers cannot be copied; one made of an empty array can be copied, but not
advanced or looked at. -/
theorem C126_union_array (s : St) (v w a n : Nat) (bs : List Buf) (hc : s.cfg = ⟨true, true⟩) (hu : s.ub = false)
    (ha : s.arrs[a]? = some (some bs)) :
    ((s.steps [.span v a, .copy w v]).ub = true ↔ bs ≠ []) ∧
    ((s.steps [.span v a, .adv v n]).ub = true ↔ bs = []) ∧
    (bs.length ≤ 1 → (s.steps [.span v a, .use v]).ub = true) := by
  have hj : s.arrs[a]?.join = some bs := by rw [ha]; rfl
  have e1 : s.step (.span v a) = { s with v := upd s.v v (Sq.ofSpan a bs) } := by
    rw [step_eq hu]
    dsimp only [St.act]
    rw [hj]
  have hst : ∀ e, s.steps [.span v a, e] = ({ s with v := upd s.v v (Sq.ofSpan a bs) } : St).act e := by
    intro e
    show (s.step (.span v a)).step e = _
    rw [e1]
    exact step_eq (s := { s with v := upd s.v v (Sq.ofSpan a bs) }) hu e
  simp only [hst]
  cases bs with
  | nil =>
    refine ⟨?_, ?_, ?_⟩ <;>
      simp [St.act, upd, Sq.ofSpan, St.advance, St.visit, Cfg.regOk, Cfg.headOk, Cfg.isReg, St.fail, hc, hu]
  | cons b bs =>
    refine ⟨?_, ?_, ?_⟩
    · simp [St.act, upd, Sq.ofSpan, Cfg.regOk, St.fail, hc]
    · cases bs with
      | nil =>
        simp [St.act, upd, Sq.ofSpan, St.advance, Cfg.headOk, St.look, hc, hu]
      | cons b' bs =>
        simp [St.act, upd, Sq.ofSpan, St.advance, Cfg.headOk, St.look, hc, hu, ha]
        split <;> simp
    · intro hl
      obtain rfl : bs = [] := by simpa using hl
      simp [St.act, upd, Sq.ofSpan, St.visit, Cfg.regOk, St.fail, hc]

/-- Such a state. -/
example : (exec ⟨true, true⟩ [.array [], .array [⟨0, 4⟩, ⟨8, 2⟩]]).arrs = [some [], some [⟨0, 4⟩, ⟨8, 2⟩]] ∧
    (exec ⟨true, true⟩ [.array [], .array [⟨0, 4⟩, ⟨8, 2⟩]]).ub = false := by decide

end Cobalt.BufVal
