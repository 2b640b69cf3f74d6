import Verif.Hnd.Spec
/-!
# Lemmas about owning handles
-/
namespace Cobalt.Hnd

/-- Number of `some t` in one handle. -/
def isOne (x : Option Nat) (t : Nat) : Nat := if x = some t then 1 else 0

theorem count_set (l : List (Option Nat)) : ∀ (i : Nat) (x : Option Nat) (t : Nat), i < l.length →
    (l.set i x).count (some t) + isOne (l[i]?).join t = l.count (some t) + isOne x t := by
  induction l with
  | nil => intro i x t h; simp at h
  | cons a l ih =>
    intro i x t h
    cases i with
    | zero =>
      simp only [List.set_cons_zero, List.getElem?_cons_zero, Option.join_some, List.count_cons, isOne, beq_iff_eq]
      omega
    | succ i =>
      simp only [List.set_cons_succ, List.getElem?_cons_succ, List.count_cons]
      have := ih i x t (by simpa using h)
      omega

theorem get_lt {s : St} {h t : Nat} (hg : s.get h = some t) : h < s.hs.length := by
  unfold St.get at hg
  by_cases hl : h < s.hs.length
  · exact hl
  · rw [List.getElem?_eq_none (by omega)] at hg; simp at hg

theorem set_ge (l : List (Option Nat)) (i : Nat) (x : Option Nat) (h : ¬ i < l.length) : l.set i x = l :=
  List.set_eq_of_length_le (by omega)

theorem isOne_self (t : Nat) : isOne (some t) t = 1 := by simp [isOne]
theorem isOne_none (t : Nat) : isOne none t = 0 := by simp [isOne]

theorem count_one (t u : Nat) : [t].count u = isOne (some t) u := by
  by_cases h : t = u
  · subst h; simp [isOne]
  · simp [List.count_singleton, isOne, h]

/-- What is held before and what is put in is held, or destroyed, afterwards. -/
theorem put_sum (s : St) (h : Nat) (x : Option Nat) (t : Nat) (hl : h < s.hs.length) :
    (s.put h x).held t + (s.put h x).destroyed.count t
      = s.held t + s.destroyed.count t + isOne x t := by
  have hc := count_set s.hs h x t hl
  unfold St.put St.held
  have hg : (s.hs[h]?).join = s.get h := rfl
  rw [hg] at hc
  cases hx : s.get h with
  | none =>
    rw [hx, isOne_none] at hc
    simp only
    omega
  | some u =>
    rw [hx] at hc
    simp only [List.count_append, count_one]
    omega

theorem put_ge (s : St) (h : Nat) (hl : ¬ h < s.hs.length) (x : Option Nat) : s.put h x = s := by
  have : s.get h = none := by
    unfold St.get; rw [List.getElem?_eq_none (by omega)]; rfl
  unfold St.put
  rw [this]
  simp only
  rw [set_ge _ _ _ hl]

theorem release_sum (s : St) (h t u : Nat) (hg : s.get h = some t) :
    (s.release h).held u + isOne (some t) u = s.held u := by
  have hc := count_set s.hs h none u (get_lt hg)
  have hj : (s.hs[h]?).join = s.get h := rfl
  rw [hj, hg, isOne_none] at hc
  unfold St.release St.held
  simp only
  omega

@[simp] theorem put_other (s : St) (h : Nat) (x : Option Nat) :
    (s.put h x).next = s.next ∧ (s.put h x).resumed = s.resumed ∧ (s.put h x).queue = s.queue ∧
    (s.put h x).ub = s.ub ∧ (s.put h x).hs.length = s.hs.length := by
  unfold St.put; split <;> simp

/-- The sum over all places and fates of a coroutine. -/
def St.sum (s : St) (t : Nat) : Nat := s.held t + s.destroyed.count t + s.resumed.count t

/-- One step: nothing changes the sum but a new coroutine, and being resumed as an lvalue. -/
theorem step_sum (s : St) (op : Op) (t : Nat) :
    (s.step op).sum t
      = s.sum t + (match op with
        | .take h => if s.ub = false ∧ h < s.hs.length then isOne (some s.next) t else 0
        | .resumeConst h => if s.ub = false then isOne (s.get h) t else 0
        | _ => 0) := by
  unfold St.step
  cases hu : s.ub with
  | true => cases op <;> simp
  | false =>
    simp only [Bool.false_eq_true, if_false]
    cases op with
    | take h =>
      simp only
      by_cases hl : h < s.hs.length
      · have := put_sum s h (some s.next) t hl
        have ho := put_other s h (some s.next)
        simp only [St.sum, St.held, hl, if_true, and_self] at *
        rw [ho.2.1]
        omega
      · simp [hl, St.sum]
    | move d u =>
      simp only [Nat.add_zero]
      by_cases hl : d < s.hs.length
      · rw [if_pos hl]
        have hl' : d < (s.release u).hs.length := by simpa [St.release] using hl
        have h1 := put_sum (s.release u) d (s.get u) t hl'
        have ho := put_other (s.release u) d (s.get u)
        have h2 : (s.release u).held t + isOne (s.get u) t = s.held t := by
          cases hg : s.get u with
          | none =>
            rw [isOne_none]
            by_cases hul : u < s.hs.length
            · have hc := count_set s.hs u none t hul
              have hj : (s.hs[u]?).join = s.get u := rfl
              rw [hj, hg] at hc
              unfold St.release St.held
              simp only
              omega
            · simp only [St.release, set_ge _ _ _ hul]; rfl
          | some v => exact release_sum s u v t hg
        have hd : (s.release u).destroyed = s.destroyed := rfl
        have hr : (s.release u).resumed = s.resumed := rfl
        unfold St.sum
        rw [ho.2.1, hr]
        rw [hd] at h1
        omega
      · rw [if_neg hl]
    | reset h =>
      simp only [Nat.add_zero]
      by_cases hl : h < s.hs.length
      · have := put_sum s h none t hl
        rw [isOne_none] at this
        have ho := put_other s h none
        unfold St.sum
        rw [ho.2.1]
        omega
      · rw [put_ge s h hl]
    | resume h =>
      simp only [Nat.add_zero]
      cases hg : s.get h with
      | none => rfl
      | some u =>
        have := release_sum s h u t hg
        simp only [St.sum, St.held, St.release, List.count_append, count_one] at *
        omega
    | resumeConst h =>
      simp only [if_true]
      cases hg : s.get h with
      | none => simp only [isOne_none]; rfl
      | some u =>
        simp only [St.sum, St.held, List.count_append, count_one]
        omega
    | post h =>
      simp only [Nat.add_zero]
      cases hg : s.get h with
      | none => rfl
      | some u =>
        have := release_sum s h u t hg
        simp only [St.sum, St.held, St.release, List.count_append, count_one] at *
        omega
    | pump =>
      simp only [Nat.add_zero]
      cases hq : s.queue with
      | nil => rfl
      | cons u q =>
        have : (u :: q).count t = q.count t + [u].count t := by
          rw [show u :: q = [u] ++ q from rfl, List.count_append, Nat.add_comm]
        simp only [St.sum, St.held, hq, List.count_append, this]
        omega
    | shutdown =>
      simp only [St.sum, St.held, List.count_append, List.count_nil]
      omega

@[simp] theorem step_len (s : St) (op : Op) : (s.step op).hs.length = s.hs.length := by
  unfold St.step
  split
  · rfl
  · cases op with
    | take h => simp only; split <;> simp
    | move d u => simp only; split <;> simp [St.release]
    | reset h => simp
    | resume h => simp only; split <;> simp [St.release]
    | resumeConst h => simp only; split <;> simp
    | post h => simp only; split <;> simp [St.release]
    | pump => simp only; split <;> simp
    | shutdown => rfl

theorem step_ub {s : St} (op : Op) (hu : s.ub = true) : s.step op = s := by simp [St.step, hu]

/-- Only `take` counts up. -/
theorem step_next (s : St) (op : Op) : (s.step op).next = s.next + (match op with
    | .take h => if s.ub = false ∧ h < s.hs.length then 1 else 0
    | _ => 0) := by
  rcases Bool.eq_false_or_eq_true s.ub with hu | hu
  · rw [step_ub op hu]; cases op <;> simp [hu]
  · unfold St.step
    simp only [hu, Bool.false_eq_true, if_false]
    cases op with
    | take h =>
      simp only [true_and]
      by_cases hl : h < s.hs.length <;> simp [hl]
    | move d u => simp only; split <;> simp [St.release]
    | reset h => simp
    | resume h => simp only; split <;> simp [St.release]
    | resumeConst h => simp only; split <;> simp
    | post h => simp only; split <;> simp [St.release]
    | pump => simp only; split <;> simp
    | shutdown => simp

/-- What is resumed stays so; for an lvalue it is exactly what the handle holds. -/
theorem step_resumed (s : St) (op : Op) (t : Nat) :
    s.resumed.count t + (match op with
      | .resumeConst h => if s.ub = false then isOne (s.get h) t else 0
      | _ => 0) ≤ (s.step op).resumed.count t := by
  rcases Bool.eq_false_or_eq_true s.ub with hu | hu
  · rw [step_ub op hu]; cases op <;> simp [hu]
  · unfold St.step
    simp only [hu, Bool.false_eq_true, if_false]
    cases op with
    | take h => simp only; split <;> simp
    | move d u => simp only; split <;> simp [St.release]
    | reset h => simp
    | resume h => simp only; split <;> simp [St.release]
    | resumeConst h =>
      simp only [if_true]
      cases hg : s.get h with
      | none => simp [isOne_none]
      | some u => simp [count_one]
    | post h => simp only; split <;> simp [St.release]
    | pump => simp only; split <;> simp
    | shutdown => simp

theorem start_count (n t : Nat) : (List.replicate n (none : Option Nat)).count (some t) = 0 := by
  rw [List.count_eq_zero]
  intro h
  have := List.eq_of_mem_replicate h
  cases this

/-- Everything that is somewhere has been handed over, once. -/
theorem run_sum (n : Nat) (ops : List Op) (hc : NoConst ops) (t : Nat) :
    (St.run n ops).sum t = if t < (St.run n ops).next then 1 else 0 := by
  suffices ∀ (ops : List Op) (s : St), NoConst ops →
      (s.sum t = if t < s.next then 1 else 0) →
      (ops.foldl St.step s).sum t = if t < (ops.foldl St.step s).next then 1 else 0 by
    refine this ops _ hc ?_
    simp only [St.sum, St.held, List.count_nil, Nat.not_lt_zero, if_false, Nat.add_zero, start_count]
  intro ops
  induction ops with
  | nil => exact fun _ _ h => h
  | cons op ops ih =>
    intro s hc h
    refine ih _ (fun o ho => hc o (List.mem_cons_of_mem _ ho)) ?_
    rw [step_sum, h, step_next]
    have hno := hc op (List.mem_cons_self ..)
    cases op with
    | take h =>
      simp only
      by_cases hl : s.ub = false ∧ h < s.hs.length
      · simp only [if_pos hl, isOne, Option.some.injEq]
        split <;> split <;> split <;> omega
      · simp only [if_neg hl, Nat.add_zero]
    | resumeConst h => exact absurd rfl (hno h)
    | _ => simp only [Nat.add_zero]

/-- With lvalue resumption too: held and destroyed together at most once. -/
theorem run_held (n : Nat) (ops : List Op) (t : Nat) :
    (St.run n ops).held t + (St.run n ops).destroyed.count t ≤ if t < (St.run n ops).next then 1 else 0 := by
  suffices ∀ (ops : List Op) (s : St),
      (s.held t + s.destroyed.count t ≤ if t < s.next then 1 else 0) →
      (ops.foldl St.step s).held t + (ops.foldl St.step s).destroyed.count t
        ≤ if t < (ops.foldl St.step s).next then 1 else 0 by
    refine this ops _ ?_
    simp only [St.held, List.count_nil, Nat.not_lt_zero, if_false, Nat.add_zero, start_count, Nat.le_refl]
  intro ops
  induction ops with
  | nil => exact fun _ h => h
  | cons op ops ih =>
    intro s h
    refine ih _ ?_
    have hs := step_sum s op t
    have hr := step_resumed s op t
    unfold St.sum at hs
    rw [step_next]
    cases op with
    | take i =>
      simp only at *
      by_cases hl : s.ub = false ∧ i < s.hs.length
      · simp only [if_pos hl, isOne, Option.some.injEq] at *
        split at h <;> split at hs <;> split <;> omega
      · simp only [if_neg hl, Nat.add_zero] at *
        omega
    | _ => simp only [Nat.add_zero] at *; omega

/-- The sum over all places and fates, with lvalue resumption too. -/
theorem run_lvalues (n : Nat) (ops : List Op) (t : Nat) :
    (St.run n ops).sum t = (if t < (St.run n ops).next then 1 else 0) +
      lvalues t { hs := List.replicate n none } ops := by
  suffices ∀ (ops : List Op) (s : St) (k : Nat),
      (s.sum t = (if t < s.next then 1 else 0) + k) →
      (ops.foldl St.step s).sum t = (if t < (ops.foldl St.step s).next then 1 else 0) + (k + lvalues t s ops) by
    have h := this ops { hs := List.replicate n none } 0 (by
      simp only [St.sum, St.held, List.count_nil, Nat.not_lt_zero, if_false, Nat.add_zero, start_count])
    rw [Nat.zero_add] at h
    exact h
  intro ops
  induction ops with
  | nil => exact fun _ _ h => h
  | cons op ops ih =>
    intro s k h
    rw [List.foldl_cons]
    simp only [lvalues]
    rw [← Nat.add_assoc k]
    refine ih _ _ ?_
    rw [step_sum, h, step_next]
    cases op with
    | take h =>
      simp only
      by_cases hl : s.ub = false ∧ h < s.hs.length
      · simp only [if_pos hl, isOne, Option.some.injEq]
        split <;> split <;> split <;> omega
      · simp only [if_neg hl, Nat.add_zero]
    | resumeConst h =>
      simp only [Nat.add_zero, isOne]
      by_cases hu : s.ub = false <;> by_cases hg : s.get h = some t <;> simp [hu, hg] <;> omega
    | _ => simp only [Nat.add_zero]

end Cobalt.Hnd
