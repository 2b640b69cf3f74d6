import Verif.SigSet.Lemmas
namespace Cobalt.SigSet

theorem abort_brings (k n : Nat) (w : Wait) : w.abort.brings k n = w.brings k n := by
  unfold Wait.abort
  split
  · rename_i h; rw [Bool.eq_iff_iff]; simp [Wait.brings, h]
  · rfl

theorem countP_set' {α : Type} (p : α → Bool) (b : α) : ∀ (l : List α) (i : Nat) (a : α), l[i]? = some a →
    (l.set i b).countP p + (if p a then 1 else 0) = l.countP p + (if p b then 1 else 0)
  | [], _, _, h => by simp at h
  | x :: l, 0, a, h => by
    simp at h; subst h
    simp only [List.set_cons_zero, List.countP_cons]
    omega
  | x :: l, i + 1, a, h => by
    have := countP_set' p b l i a (by simpa using h)
    simp only [List.set_cons_succ, List.countP_cons]
    omega

theorem filterMap_set' {α β : Type} (f : α → Option β) (b : α) : ∀ (l : List α) (i : Nat) (a : α), l[i]? = some a → f b = f a →
    (l.set i b).filterMap f = l.filterMap f
  | [], _, _, h, _ => by simp at h
  | x :: l, 0, a, h, he => by
    simp at h; subst h
    simp [List.filterMap_cons, he]
  | x :: l, i + 1, a, h, he => by
    simp only [List.set_cons_succ, List.filterMap_cons, filterMap_set' f b l i a (by simpa using h) he]

/-- A signal is brought by all waits in the queue. -/
theorem countP_deliver (k n m : Nat) (regs : Nat → List Nat) (l : List Wait)
    (h : ∀ w ∈ l, w.dropped = true → w.stage ≠ .queued) :
    (l.map fun w => w.deliver m (regs w.set)).countP (Wait.brings k n) = l.countP (Wait.brings k n) +
      (if n = m ∧ m ∈ regs k then l.countP (Wait.queuedAt k) else 0) := by
  induction l with
  | nil => simp
  | cons w l ih =>
    have ih := ih fun v hv => h v (List.mem_cons_of_mem _ hv)
    have hw := h w (List.mem_cons_self ..)
    have key : (if (w.deliver m (regs w.set)).brings k n then 1 else 0) = (if w.brings k n then 1 else 0) +
        (if n = m ∧ m ∈ regs k then (if w.queuedAt k then 1 else 0) else 0) := by
      obtain ⟨ws, wg, wd⟩ := w
      unfold Wait.deliver
      by_cases hq : wg = .queued
      · subst hq
        have hd : wd = false := by cases wd with
          | false => rfl
          | true => exact absurd rfl (hw rfl)
        subst hd
        by_cases hr : m ∈ regs ws
        · simp only [hr, and_self, if_true, Wait.brings, Wait.queuedAt]
          by_cases hk : ws = k
          · subst hk
            by_cases hn : n = m
            · subst hn; simp [hr]
            · simp [hn, Ne.symm hn]
          · simp [hk]
        · simp only [hr, and_false, if_false, Wait.brings, Wait.queuedAt]
          by_cases hk : ws = k
          · subst hk; simp [hr]
          · simp [hk]
      · simp [hq, Wait.queuedAt]
    simp only [List.map_cons, List.countP_cons, ih, key]
    split <;> omega

/-- What coroutines were told and will be. -/
def total (k n : Nat) (s : St) : Nat := (told k s).count n + kept k n s

theorem any_queued (k : Nat) (l : List Wait) : l.any (Wait.queuedAt k) = false ↔ l.countP (Wait.queuedAt k) = 0 := by
  rw [List.countP_eq_zero, List.any_eq_false]

theorem total_signal {es : List Ev} {s : St} (h : WF es s) (k n m : Nat) : total k n (s.act (.signal m)) = total k n s +
    (if n = m ∧ m ∈ s.regs k then (if s.waits.countP (Wait.queuedAt k) = 0 then 1 else s.waits.countP (Wait.queuedAt k))
      else 0) := by
  simp only [total, kept, St.act, St.signal, countP_deliver k n m s.regs s.waits h.dropped, any_queued]
  have : told k { s with
    waits := s.waits.map fun w => w.deliver m (s.regs w.set)
    count := fun k n => if n = m ∧ m ∈ s.regs k ∧ s.waits.any (Wait.queuedAt k) = false then s.count k n + 1 else s.count k n }
      = told k s := rfl
  simp only [told] at this ⊢
  by_cases h1 : n = m ∧ m ∈ s.regs k
  · simp only [h1.1, h1.2, true_and, and_self, if_true]
    split <;> omega
  · rw [if_neg h1, if_neg h1, if_neg (fun h2 => h1 ⟨h2.1, h2.2.1⟩)]
    omega

theorem total_wait (s : St) (k n j : Nat) : total k n (s.act (.wait j)) = total k n s := by
  simp only [St.act, St.wait]
  split
  · rename_i m hm
    have hp : 0 < s.count j m := by simpa using List.find?_some hm
    simp only [total, kept, told, List.countP_append, List.countP_singleton, Wait.brings]
    by_cases h1 : k = j ∧ n = m
    · obtain ⟨rfl, rfl⟩ := h1
      simp
      omega
    · rw [if_neg h1]
      have : ¬ (j = k ∧ m = n) := fun hx => h1 ⟨hx.1.symm, hx.2.symm⟩
      simp
      intro h2 h3
      exact absurd ⟨h2, h3⟩ this
  · simp [total, kept, told, List.countP_append, Wait.brings]

theorem total_run (s : St) (k n i : Nat) : total k n (s.act (.run i)) = total k n s := by
  simp only [St.act, St.runWait]
  split
  · rename_i w hw
    split
    · rename_i o ho
      have h1 := countP_set' (Wait.brings k n) { w with stage := .done } s.waits i w hw
      have h2 : Wait.brings k n { w with stage := .done } = false := by simp [Wait.brings]
      rw [h2] at h1
      simp only [total, kept, St.finish, told]
      have h3 : w.brings k n = (w.set == k && o == .sig n && !w.dropped) := by
        rw [Bool.eq_iff_iff]; simp [Wait.brings, ho]
      rw [h3] at h1
      cases hd : w.dropped with
      | true => simp [hd] at h1 ⊢; omega
      | false =>
        simp only [hd, Bool.false_eq_true, if_false, List.filterMap_append, List.count_append] at h1 ⊢
        cases o with
        | aborted => simp at h1 ⊢; omega
        | sig m =>
          by_cases hk : w.set = k
          · by_cases hm : m = n
            · subst hm; simp [hk] at h1 ⊢; omega
            · simp [hk, hm] at h1 ⊢; omega
          · simp [hk] at h1 ⊢; omega
    · rfl
  · rfl

theorem total_abort (s : St) (k n i : Nat) : total k n (s.act (.abort i)) = total k n s := by
  simp only [St.act]
  split
  · rename_i w hw
    have h1 := countP_set' (Wait.brings k n) w.abort s.waits i w hw
    rw [abort_brings] at h1
    simp only [total, kept, told]
    omega
  · rfl

theorem total_cancel (s : St) (k n j : Nat) : total k n (s.act (.cancel j)) = total k n s := by
  simp only [St.act, total, kept, told, List.countP_map]
  congr 2
  apply congrFun
  congr 1
  funext w
  simp only [Function.comp]
  split
  · exact abort_brings k n w
  · rfl

theorem total_drop {s : St} {i : Nat} {w : Wait} (hw : s.waits[i]? = some w) (k n : Nat) :
    total k n (s.act (.drop i)) + (if w.brings k n then 1 else 0) = total k n s := by
  simp only [St.act, hw]
  have h1 := countP_set' (Wait.brings k n) { w.abort with dropped := true } s.waits i w hw
  have h2 : Wait.brings k n { w.abort with dropped := true } = false := by simp [Wait.brings]
  rw [h2] at h1
  simp only [total, kept, told]
  simp at h1
  omega

theorem total_remove (s : St) (k n j m : Nat) :
    total k n (s.act (.remove j m)) + (if k = j ∧ n = m then s.count k n else 0) = total k n s := by
  simp only [St.act, total, kept, told]
  split <;> omega

theorem total_clear (s : St) (k n j : Nat) :
    total k n (s.act (.clear j)) + (if k = j then s.count k n else 0) = total k n s := by
  simp only [St.act, total, kept, told]
  split <;> omega

theorem total_add (s : St) (k n j m : Nat) : total k n (s.act (.add j m)) = total k n s := rfl

/-- An event after which the balance is wrong is one of `Trouble`. -/
theorem exact_step {es : List Ev} {e : Ev} (hl : Legal {} (es ++ [e])) (hx : Exact es) :
    Exact (es ++ [e]) ↔ ¬ Trouble (St.run es) e := by
  obtain ⟨h1, hc⟩ := legal_snoc hl
  have hw := WF.run h1
  have hx : ∀ k n, (came k es).count n = total k n (St.run es) := hx
  have hE : Exact (es ++ [e]) ↔ ∀ k n, (came k (es ++ [e])).count n = total k n ((St.run es).act e) := by
    unfold Exact; rw [run_snoc, step_can hc]; rfl
  rw [hE]
  generalize St.run es = s at *
  cases e with
  | add j m => simp only [came_snoc, List.append_nil, hx, total_add, Trouble]; simp
  | cancel j => simp only [came_snoc, List.append_nil, hx, total_cancel, Trouble]; simp
  | wait j => simp only [came_snoc, List.append_nil, hx, total_wait, Trouble]; simp
  | abort i => simp only [came_snoc, List.append_nil, hx, total_abort, Trouble]; simp
  | run i => simp only [came_snoc, List.append_nil, hx, total_run, Trouble]; simp
  | remove j m =>
    simp only [came_snoc, List.append_nil, hx, Trouble]
    constructor
    · intro h; have h2 := h j m; have h3 := total_remove s j m j m; simp at h3; simp; omega
    · intro h k n
      have h3 := total_remove s k n j m
      split at h3
      · rename_i h4; obtain ⟨rfl, rfl⟩ := h4; omega
      · omega
  | clear j =>
    simp only [came_snoc, List.append_nil, hx, Trouble]
    constructor
    · rintro h ⟨n, hn⟩; have h2 := h j n; have h3 := total_clear s j n j; simp at h3; omega
    · intro h k n
      have h3 := total_clear s k n j
      split at h3
      · rename_i h4; subst h4
        have : s.count k n = 0 := Classical.byContradiction fun hne => h ⟨n, hne⟩
        omega
      · omega
  | drop i =>
    simp only [came_snoc, List.append_nil, hx, Trouble]
    simp only [St.can, Option.any_eq_true, Bool.and_eq_true, Bool.not_eq_true'] at hc
    obtain ⟨w, hwi, hd, hs⟩ := hc
    constructor
    · rintro h ⟨v, n, hv, hg⟩
      rw [hwi] at hv; cases hv
      have h2 := h w.set n
      have h3 := total_drop hwi w.set n
      rw [if_pos (by simp [Wait.brings, hg, hd])] at h3
      omega
    · intro h k n
      have h3 := total_drop hwi k n
      rw [if_neg ?_] at h3
      · omega
      · intro hb
        simp only [Wait.brings, Bool.and_eq_true, beq_iff_eq] at hb
        exact h ⟨w, n, hwi, hb.1.2⟩
  | signal m =>
    simp only [came_snoc, List.count_append, hx, total_signal hw, Trouble]
    constructor
    · rintro h ⟨k, hk, hq⟩
      have h2 := h k m
      rw [if_pos ((hw.regs k m).1 hk), if_pos ⟨rfl, hk⟩, if_neg (by omega)] at h2
      simp at h2
      omega
    · intro h k n
      by_cases hk : m ∈ s.regs k
      · rw [if_pos ((hw.regs k m).1 hk)]
        by_cases hn : n = m
        · rw [if_pos ⟨hn, hk⟩]
          have : ¬ 2 ≤ s.waits.countP (Wait.queuedAt k) := fun h2 => h ⟨k, hk, h2⟩
          subst hn
          simp only [List.count_singleton_self]
          split <;> omega
        · rw [if_neg (fun h2 => hn h2.1)]
          simp [Ne.symm hn]
      · rw [if_neg (fun h2 => hk ((hw.regs k m).2 h2)), if_neg (fun h2 => hk h2.2)]
        simp

end Cobalt.SigSet
