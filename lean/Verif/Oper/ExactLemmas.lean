import Verif.Oper.ExactSpec
import Verif.Oper.Lemmas

/-!
# Lemmas for the exact form of C33 and C34
-/
namespace Cobalt.Oper

def fm (on : Bool) : Flag := if on then .maybe else .initiating

def EndsX (on : Bool) (r : End) (t : S) : Prop :=
  match r with
  | .kept => t = mk (fm on)
  | .completed v =>
    if on then t = { mk .yes with result := some v, holder := .gone }
    else t.early = true ∧ t.exc = false ∧ (t.ub = true ∨ t.alive = false)
  | .stored => t = { mk (fm on) with holder := .stored }
  | .dropped => t.exc = false ∧ (t.ub = true ∨ t.alive = false)
  | .thrown => t = { mk (fm on) with exc := true }

theorem after_gone {t : S} (h1 : t.exc = false) (h2 : t.ub = true ∨ t.alive = false) :
    t.after.early = t.early ∧ t.after.exc = false ∧ (t.after.ub = true ∨ t.after.alive = false) := by
  cases hu : t.ub
  · have : t.alive = false := by simpa [hu] using h2
    simp [S.after, h1, hu, this]
  · simp [S.after, h1, hu]

theorem eval_endsX (a : Act) : ∀ (w on : Bool) (r : End), fate w a = some r →
    EndsX (mark w on a) r (eval a (mk (fm on))) := by
  induction a with
  | skip =>
    intro w on r h
    obtain rfl : End.kept = r := by simpa [fate] using h
    rfl
  | seq a b iha ihb =>
    intro w on r h
    cases hf : fate w a with
    | none => simp [fate, hf] at h
    | some ra =>
      have ea := iha w on ra hf
      have stop : ra ≠ .kept → ra ≠ .thrown → EndsX (mark w on (.seq a b)) r (eval (.seq a b) (mk (fm on))) := by
        intro h1 h2
        have hi : b.idle = true ∧ ra = r := by
          cases ra <;> simp_all [fate]
        obtain ⟨hi, rfl⟩ := hi
        have : eval (.seq a b) (mk (fm on)) = eval a (mk (fm on)) := by
          simp only [eval, eval_idle hi, ite_self]
        rw [this]
        simpa [mark, hf, h1] using ea
      cases ra with
      | kept =>
        simp only [fate, hf] at h
        have eb := ihb w (mark w on a) r h
        simp only [mark, hf, if_true]
        simp only [EndsX] at ea
        simp only [eval, ea]
        exact eb
      | thrown =>
        obtain rfl : End.thrown = r := by simpa [fate, hf] using h
        simp only [mark, hf]
        simp only [EndsX] at ea ⊢
        simp only [eval, ea]
        simp
      | completed v => exact stop (by simp) (by simp)
      | stored => exact stop (by simp) (by simp)
      | dropped => exact stop (by simp) (by simp)
  | exec a ih =>
    intro w on r h
    simp only [fate] at h
    have e := ih true true r h
    have hev : eval (.exec a) (mk (fm on)) = (eval a (mk (fm true))).after := by
      cases on <;> rfl
    rw [hev]
    simp only [mark, h]
    cases r with
    | kept =>
      simp only [EndsX] at e ⊢
      rw [e]
      cases mark true true a <;> rfl
    | completed v =>
      simp only [EndsX] at e ⊢
      split
      · rename_i hb
        rw [if_pos hb] at e
        rw [e]; rfl
      · rename_i hb
        rw [if_neg hb] at e
        obtain ⟨e1, e2, e3⟩ := e
        obtain ⟨k1, k2, k3⟩ := after_gone e2 e3
        exact ⟨k1.trans e1, k2, k3⟩
    | stored =>
      simp only [EndsX] at e ⊢
      rw [e]
      cases mark true true a <;> rfl
    | dropped =>
      simp only [EndsX] at e ⊢
      exact (after_gone e.1 e.2).2
    | thrown =>
      simp only [EndsX] at e ⊢
      rw [e]; rfl
  | attempt a ih =>
    intro w on r h
    cases hf : fate w a with
    | none => simp [fate, hf] at h
    | some ra =>
      have e := ih w on ra hf
      simp only [mark, eval]
      cases ra with
      | thrown =>
        obtain rfl : End.kept = r := by simpa [fate, hf] using h
        simp only [EndsX] at e ⊢
        rw [e]; rfl
      | kept =>
        obtain rfl : End.kept = r := by simpa [fate, hf] using h
        simp only [EndsX] at e ⊢
        rw [e]; rfl
      | stored =>
        obtain rfl : End.stored = r := by simpa [fate, hf] using h
        simp only [EndsX] at e ⊢
        rw [e]; rfl
      | completed v =>
        obtain rfl : End.completed v = r := by simpa [fate, hf] using h
        simp only [EndsX] at e ⊢
        split
        · rename_i hb
          rw [if_pos hb] at e
          rw [e]; rfl
        · rename_i hb
          rw [if_neg hb] at e
          exact ⟨e.1, trivial, e.2.2⟩
      | dropped =>
        obtain rfl : End.dropped = r := by simpa [fate, hf] using h
        simp only [EndsX] at e ⊢
        exact ⟨trivial, e.2⟩
  | complete v =>
    intro w on r h
    cases w with
    | false => simp [fate] at h
    | true =>
      obtain rfl : End.completed v = r := by simpa [fate] using h
      cases on <;> simp [EndsX, mark, eval, fm, mk, S.complete, S.goOn]
  | store =>
    intro w on r h
    obtain rfl : End.stored = r := by simpa [fate] using h
    simp [EndsX, mark, eval, mk]
  | drop =>
    intro w on r h
    obtain rfl : End.dropped = r := by simpa [fate] using h
    simp [EndsX, eval, mk, S.drop]
  | throw =>
    intro w on r h
    obtain rfl : End.thrown = r := by simpa [fate] using h
    simp [EndsX, mark, eval, mk]

theorem gone_ub {a : Act} (h1 : (eval a (mk .initiating)).exc = false)
    (h2 : (eval a (mk .initiating)).ub = true ∨ (eval a (mk .initiating)).alive = false) :
    (S.suspend a).ub = true ∧ (S.suspend a).early = (eval a (mk .initiating)).early := by
  have hmk : mk .initiating = { flag := .initiating, holder := .held, init := true } := rfl
  rw [hmk] at h1 h2 ⊢
  unfold S.suspend
  generalize eval a { flag := .initiating, holder := .held, init := true } = s at *
  have hd : s.drop.early = s.early ∧ (s.alive = false → s.drop.alive = false) := by
    unfold S.drop
    repeat' split
    all_goals simp_all
  cases hu : s.ub with
  | true => simp [hu]
  | false =>
    have ha : s.alive = false := by simpa [hu] using h2
    simp [hu, h1, S.initiated, hd.2 ha, hd.1]

theorem apply_ub {s : S} (h : s.ub = true) (l : Later) : (l.apply s).ub = true := by
  cases l with
  | done v => simp [Later.apply, S.later, h]
  | abandon => simp [Later.apply, S.later, h]
  | dispatch v =>
    have : s.later (.exec (.complete v)) = s := by simp [S.later, h]
    simp only [Later.apply, this, S.run]
    split
    · exact h
    · simp [S.later, h]

theorem bad_of_ub {a : Act} (h : (S.suspend a).ub = true) (r : End) (l : Option Later) : ¬ Good none a r l := by
  intro hg
  have := hg.ub
  cases l with
  | none => simp [outcome, S.await, h] at this
  | some l => simp [outcome, S.await, apply_ub h l] at this

theorem suspend_completed {a : Act} {v : Nat}
    (e : eval a (mk .initiating) = { mk .yes with result := some v, holder := .gone }) :
    S.suspend a = { result := some v, flag := .yes, returned := [.value v], alive := false } := by
  unfold S.suspend
  simp only [mk] at e
  simp only [e]
  simp [S.initiated, S.drop, S.goOn]

theorem suspend_thrown {a : Act} (e : eval a (mk .initiating) = { mk .initiating with exc := true }) :
    S.suspend a = { flag := .initiating, returned := [.initFailed], alive := false } := by
  unfold S.suspend
  simp only [mk] at e
  simp only [e]
  simp [S.failed, S.drop]

theorem suspend_thrown_on {a : Act} (e : eval a (mk .initiating) = { mk .maybe with exc := true }) :
    (S.suspend a).ub = true := by
  unfold S.suspend
  simp only [mk] at e
  simp only [e]
  simp [S.failed, S.drop]

theorem suspend_stored {a : Act} (on : Bool) (e : eval a (mk .initiating) = { mk (fm on) with holder := .stored }) :
    S.suspend a = { flag := if on then .maybe else .no, holder := .stored, suspended := true } := by
  unfold S.suspend
  simp only [mk] at e
  simp only [e]
  cases on <;> simp [S.initiated, S.drop, fm]

end Cobalt.Oper
