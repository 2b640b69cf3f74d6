import Verif.BufVal.Lemmas
/-!
# Invariants for `BufVal/Props.lean`
-/
namespace Cobalt.BufVal

open Io (Buf)

theorem cfg_step (s : St) (e : Ev) : (s.step e).cfg = s.cfg := by
  unfold St.step
  split
  · rfl
  · cases e <;> dsimp only [St.act, St.advance, St.visit, St.fail]
    case span => split <;> rfl
    case copy => split <;> rfl
    case adv => split; rfl; split; rfl; split <;> rfl
    case use =>
      split
      · split
        · rfl
        · split <;> rfl
      · split
        · rfl
        · split
          · rfl
          · split <;> rfl

theorem lax_active {s : St} (h : Lax s.cfg) (e : Ev) : Active s e := by
  cases e <;> simp only [Active]
  all_goals exact fun h1 h2 => absurd ⟨h1, h2⟩ h

/-- As long as `J` holds the union, the arrays and the buffers are read as they should be. -/
theorem run_all {J : St → Spec → Prop} {Q : Ev → Bool}
    (hJ : ∀ s p e, Rel s p → J s p → s.ub = false → Q e = true → Active s e ∧ Reads s e ∧ Still s e)
    (hk : ∀ s p e, Rel s p → J s p → s.ub = false → Q e = true → J (s.step e) (p.step e)) (es : List Ev) :
    ∀ {s : St} {p : Spec}, Rel s p → J s p → s.ub = false → es.all Q = true →
      (s.steps es).ub = false ∧ given (s.steps es) = (p.steps es).log := by
  induction es with
  | nil => exact fun h _ hu _ => ⟨hu, h.log⟩
  | cons e es ih =>
    intro s p h hj hu hq
    simp only [List.all_cons, Bool.and_eq_true] at hq
    obtain ⟨h1, h2, h3⟩ := hJ s p e h hj hu hq.1
    have hu' := (step_ub_iff hu e).2 ⟨h1, h2⟩
    exact ih (h.step hu e h3 hu') (hk s p e h hj hu hq.1) hu' hq.2

/-- All the arrays are there. -/
def AllThere (s : St) : Prop := ∀ a, a < s.arrs.length → (s.arrs[a]?).join ≠ none

theorem allThere_step {s : St} (h : AllThere s) (hu : s.ub = false) (e : Ev) (hk : Keeps e = true) :
    AllThere (s.step e) := by
  have hcase : (s.step e).arrs = s.arrs ∨ ∃ bs, (s.step e).arrs = s.arrs ++ [some bs] := by
    rw [step_eq hu]
    cases e <;> simp only [Keeps, Bool.false_eq_true] at hk <;> dsimp only [St.act, St.advance, St.visit, St.fail]
    case array => exact Or.inr ⟨_, rfl⟩
    all_goals left
    case reg => rfl
    case plain => rfl
    case span => split <;> rfl
    case copy => split <;> rfl
    case adv => split; rfl; split; rfl; split <;> rfl
    case use =>
      split
      · split
        · rfl
        · split <;> rfl
      · split
        · rfl
        · split
          · rfl
          · split <;> rfl
  intro a ha
  rcases hcase with e | ⟨bs, e⟩
  · rw [e] at ha ⊢; exact h a ha
  · rw [e] at ha ⊢
    rw [List.getElem?_append]
    split
    · next h1 => exact h a h1
    · next h1 =>
      simp only [List.length_append, List.length_cons, List.length_nil] at ha
      have : a - s.arrs.length = 0 := by omega
      simp [this]

theorem single_step {s : St} (h : ∀ v, (s.v v).tail.len = 0) (hu : s.ub = false) (e : Ev) (hk : Single e = true) (v : Nat) :
    ((s.step e).v v).tail.len = 0 := by
  have hs : ∀ (w : Nat) (q : Sq), q.tail.len = 0 → (upd s.v w q v).tail.len = 0 := by
    intro w q hq
    rw [upd_apply]; split
    · exact hq
    · exact h v
  rw [step_eq hu]
  cases e <;> simp only [Single, Bool.false_eq_true] at hk <;> dsimp only [St.act, St.fail]
  case array => exact h v
  case gone => exact h v
  case put => exact h v
  case reg => exact hs _ _ rfl
  case plain => exact hs _ _ rfl
  case copy x w =>
    split
    · exact h v
    · refine hs _ _ ?_
      unfold Cfg.dup
      split <;> exact h w
  case adv w n =>
    have ha : ∀ tl, (((s.v w).adv tl n).tail).len = 0 := by
      intro tl
      rcases (adv_props (s.v w) tl n).2 with e | e | ⟨m, _, e⟩ <;> rw [e]
      · exact h w
      · simp [h w]
    dsimp only [St.advance, St.fail]
    split
    · exact h v
    · split
      · exact hs _ _ (ha _)
      · split
        · exact h v
        · exact hs _ _ (ha _)
  case use w =>
    dsimp only [St.visit, St.fail]
    split
    · split
      · exact h v
      · split <;> exact h v
    · split
      · exact h v
      · split
        · exact h v
        · split <;> exact h v

/-- The variables in `seen` hold registered buffers. -/
structure Regs (s : St) (seen : List Nat) : Prop where
  one : ∀ v, (s.v v).tail.len = 0
  reg : s.cfg.uring = true → ∀ v ∈ seen, (s.v v).plain = false ∧ (s.v v).id ≠ 0

theorem Regs.set {s : St} {seen : List Nat} (h : Regs s seen) (v : Nat) (q : Sq) (h1 : q.tail.len = 0)
    (h2 : s.cfg.uring = true → q.plain = false ∧ q.id ≠ 0) : Regs { s with v := upd s.v v q } (v :: seen) := by
  constructor
  · intro w; dsimp only [upd_apply]; split
    · exact h1
    · exact h.one w
  · intro hu w hw; dsimp only [upd_apply]; split
    · exact h2 hu
    · next hne => exact h.reg hu w (by simpa [hne] using hw)

end Cobalt.BufVal
