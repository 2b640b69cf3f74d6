import Verif.Hnd.Lemmas
/-!
# Properties of owning handles
-/
namespace Cobalt.Hnd

/-- **C55**, in full: each coroutine handed over is in one place, or has been resumed once or
destroyed once, and never both. -/
def C55 : Prop := ∀ (n : Nat) (ops : List Op) (t : Nat), t < (St.run n ops).next →
  (St.run n ops).held t + (St.run n ops).destroyed.count t + (St.run n ops).resumed.count t = 1

/-- **C55**, as far as it holds. Missing from the full statement: no handle is resumed as an
lvalue. (The library itself never does that.) -/
theorem C55_partial (n : Nat) (ops : List Op) (hc : NoConst ops) (t : Nat)
    (ht : t < (St.run n ops).next) :
    (St.run n ops).held t + (St.run n ops).destroyed.count t + (St.run n ops).resumed.count t = 1 := by
  have := run_sum n ops hc t
  rwa [if_pos ht] at this

/-- Two coroutines; one is moved over the other, and resumed by an executor. -/
def mixed : List Op := [.take 0, .take 1, .move 0 1, .post 0, .pump]

example : NoConst mixed ∧ 1 < (St.run 2 mixed).next ∧ (St.run 2 mixed).destroyed = [0] ∧
    (St.run 2 mixed).resumed = [1] := by
  refine ⟨?_, by decide, by decide, by decide⟩
  intro op ho h he
  subst he
  simp [mixed] at ho

/-- A coroutine that was not handed over is not touched. -/
theorem C55_unknown (n : Nat) (ops : List Op) (hc : NoConst ops) (t : Nat)
    (ht : (St.run n ops).next ≤ t) :
    (St.run n ops).held t = 0 ∧ t ∉ (St.run n ops).destroyed ∧ t ∉ (St.run n ops).resumed := by
  have h := run_sum n ops hc t
  rw [if_neg (by omega)] at h
  unfold St.sum at h
  refine ⟨by omega, ?_, ?_⟩
  · exact List.count_eq_zero.1 (by omega)
  · exact List.count_eq_zero.1 (by omega)

example : NoConst mixed ∧ (St.run 2 mixed).next ≤ 2 := by
  refine ⟨?_, by decide⟩
  intro op ho h he
  subst he
  simp [mixed] at ho

/-- Whatever is done, a coroutine is held in at most one place, destroyed at most once, and
not held any more when it is destroyed. -/
theorem C55_owner (n : Nat) (ops : List Op) (t : Nat) :
    (St.run n ops).held t + (St.run n ops).destroyed.count t ≤ 1 := by
  have := run_held n ops t
  split at this <;> omega

/-- After all handles have ended and the executor has dropped its queue, nothing is held. -/
theorem held_cleanup (n : Nat) (s : St) (hn : s.hs.length ≤ n) (hu : s.ub = false) (t : Nat) :
    ((cleanup n).foldl St.step s).held t = 0 := by
  suffices ∀ (n : Nat) (s : St), s.ub = false → (∀ i u, s.get i = some u → i < n) →
      ((cleanup n).foldl St.step s).held t = 0 from
    this n s hu (fun i u h => Nat.lt_of_lt_of_le (get_lt h) hn)
  intro n
  induction n with
  | zero =>
    intro s hu h
    simp only [cleanup, List.foldl_cons, List.foldl_nil, St.step, hu, Bool.false_eq_true, if_false, St.held,
      List.count_nil, Nat.add_zero]
    rw [List.count_eq_zero]
    intro hm
    obtain ⟨i, hi, he⟩ := List.getElem_of_mem hm
    have := h i t (by unfold St.get; rw [List.getElem?_eq_getElem hi, he]; rfl)
    omega
  | succ n ih =>
    intro s hu h
    refine ih _ ?_ ?_
    · simp [St.step, hu]
    · intro i u hg
      have hst : s.step (.reset n) = s.put n none := by simp [St.step, hu]
      rw [hst] at hg
      have hhs : (s.put n none).hs = s.hs.set n none := by unfold St.put; split <;> rfl
      unfold St.get at hg
      rw [hhs, List.getElem?_set] at hg
      split at hg
      · split at hg <;> simp at hg
      · have := h i u hg
        omega

theorem cleanup_noConst : ∀ (n h : Nat), Op.resumeConst h ∉ cleanup n
  | 0, _, hm => by simp [cleanup] at hm
  | n + 1, h, hm => by
    simp only [cleanup, List.mem_cons, reduceCtorEq, false_or] at hm
    exact cleanup_noConst n h hm

/-- In the end each coroutine has been resumed once or destroyed once. -/
theorem C55_end (n : Nat) (ops : List Op) (hc : NoConst ops) (hu : (St.run n ops).ub = false) (t : Nat)
    (ht : t < (St.run n (ops ++ cleanup n)).next) :
    (St.run n (ops ++ cleanup n)).destroyed.count t + (St.run n (ops ++ cleanup n)).resumed.count t = 1 := by
  have hlen : (St.run n ops).hs.length = n := by
    suffices ∀ (ops : List Op) (s : St), (ops.foldl St.step s).hs.length = s.hs.length by
      unfold St.run; rw [this]; simp
    intro ops
    induction ops with
    | nil => exact fun _ => rfl
    | cons op ops ih => intro s; rw [List.foldl_cons, ih, step_len]
  have hc' : NoConst (ops ++ cleanup n) := by
    intro op ho h he
    rcases List.mem_append.1 ho with h1 | h1
    · exact hc op h1 h he
    · subst he
      exact cleanup_noConst n h h1
  have h1 := C55_partial n (ops ++ cleanup n) hc' t ht
  have h2 : (St.run n (ops ++ cleanup n)).held t = 0 := by
    have : St.run n (ops ++ cleanup n) = (cleanup n).foldl St.step (St.run n ops) := by
      unfold St.run; rw [List.foldl_append]
    rw [this]
    exact held_cleanup n _ (by rw [hlen]; exact Nat.le_refl _) hu t
  omega

example : (St.run 2 [.take 0, .take 1, .post 1]).ub = false ∧
    (St.run 2 ([.take 0, .take 1, .post 1] ++ cleanup 2)).destroyed = [0, 1] := by decide

/-- **C55** is violated: resuming a handle as an lvalue (`h.resume()`, `h()`) leaves it owning
the coroutine, which is destroyed later although it has been resumed. -/
theorem C55_violated : ¬ C55 := by
  intro h
  have := h 1 [.take 0, .resumeConst 0, .reset 0] 0 (by decide)
  revert this
  decide

/-- **C55**, exactly: places and fates of a coroutine sum up to one, and one for each time it was resumed as an lvalue. -/
theorem C55_exact (n : Nat) (ops : List Op) (t : Nat) (ht : t < (St.run n ops).next) :
    (St.run n ops).held t + (St.run n ops).destroyed.count t + (St.run n ops).resumed.count t
      = 1 + lvalues t { hs := List.replicate n none } ops := by
  have := run_lvalues n ops t
  rwa [if_pos ht] at this

example : lvalues 0 { hs := List.replicate 1 none } [.take 0, .resumeConst 0, .resumeConst 0, .reset 0] = 2 := by decide

/-- Or resumed again. -/
theorem C55_violated_twice :
    (St.run 1 [.take 0, .resumeConst 0, .resume 0]).resumed = [0, 0] := by decide

/-- Resuming an empty handle is UB, and only that: an operation on a handle that has been
moved from, for instance. -/
theorem C55_empty (s : St) (op : Op) (hs : s.ub = false) :
    (s.step op).ub = true ↔ ∃ h, (op = .resume h ∨ op = .resumeConst h) ∧ s.get h = none := by
  unfold St.step
  simp only [hs, Bool.false_eq_true, if_false]
  cases op with
  | take h => simp only; split <;> simp [hs]
  | move d u => simp only; split <;> simp [St.release, hs]
  | reset h => simp [hs]
  | resume h => simp only; split <;> simp_all [St.release]
  | resumeConst h => simp only; split <;> simp_all
  | post h => simp only; split <;> simp [St.release, hs]
  | pump => simp only; split <;> simp [hs]
  | shutdown => simp [hs]

example : (St.run 2 [.take 0, .move 1 0, .resume 0]).ub = true := by decide

end Cobalt.Hnd
