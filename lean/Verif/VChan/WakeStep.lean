import Verif.VChan.WakeLemmas
import Verif.VChan.WakeSpec
/-!
# Lemmas for C98: one step
-/
namespace Cobalt.VChan

open Chan (Status Tok upd countP_eq countP_eraseIdx)

theorem int_n (s : St) (t : Tok) : (s.int t).n = s.n := by
  cases t with
  | r i =>
    simp only [St.int, intR_eq]; split
    · rfl
    · split <;> rfl
  | w i =>
    simp only [St.int, intW_eq]; split
    · rfl
    · split <;> rfl

theorem hits_n (ts : List Tok) (s : St) : (ts.foldl St.int s).n = s.n := by
  induction ts generalizing s with
  | nil => rfl
  | cons t ts ih => rw [List.foldl_cons, ih, int_n]

theorem Wk.handR {s : St} {i w : Nat} (h : WF s none) (v : Wk s none) (txn : Bool)
    (hf : (s.R i).status = .fresh) (hb : s.n.toNat = 0) (hw : (s.W w).waiting = true) :
    Wk ((s.takeFrom i w txn).handR i w) (some (.w w)) := by
  have hnr : Tok.r i ∉ s.posted := fun hm => by
    have := (h.rpost i hm).1
    rw [hf] at this; exact absurd this (by simp)
  have hnw : Tok.w w ∉ s.posted := fun hm => by
    have := (h.wpost w hm).2.1
    rw [hw] at this; exact absurd this (by simp)
  constructor
  · intro _
    show s.n.toNat ≤ _
    rw [hb]; simp
  · intro hq
    have hq' : s.wq ≠ [] := by
      rintro e
      apply hq
      simp [St.handR, St.takeFrom, e]
    have := v.w hq'
    have e1 : s.posted.countP ((s.takeFrom i w txn).handR i w).puts = s.posted.countP s.puts := countP_eq fun x hx => by
      cases x with
      | r j => rfl
      | w j =>
        have hj : j ≠ w := fun e => hnw (e ▸ hx)
        simp [St.puts, St.handR, St.takeFrom, upd_apply, hj]
    have e2 : ((s.takeFrom i w txn).handR i w).posted = s.posted ++ [.r i] := rfl
    show s.limit.toNat ≤ s.n.toNat + _ + _
    rw [e2, List.countP_append, e1]
    simp at this
    omega

theorem Wk.handW {s : St} {i j : Nat} (h : WF s none) (v : Wk s none) (txn : Bool)
    (hf : (s.W i).status = .fresh) (hb : s.limit.toNat ≤ s.n.toNat) (hw : (s.R j).waiting = true) :
    Wk ((s.giveTo i j txn).handW i j) (some (.r j)) := by
  have hnr : Tok.r j ∉ s.posted := fun hm => by
    have := (h.rpost j hm).2.1
    rw [hw] at this; exact absurd this (by simp)
  constructor
  · intro hq
    have hq' : s.rq ≠ [] := by
      rintro e
      apply hq
      simp [St.handW, St.giveTo, e]
    have := v.r hq'
    have e1 : s.posted.countP ((s.giveTo i j txn).handW i j).takes = s.posted.countP s.takes := countP_eq fun x hx => by
      cases x with
      | w k => rfl
      | r k =>
        have hj : k ≠ j := fun e => hnr (e ▸ hx)
        simp [St.takes, St.handW, St.giveTo, upd_apply, hj]
    have e2 : ((s.giveTo i j txn).handW i j).posted = s.posted ++ [.w i] := rfl
    show s.n.toNat ≤ _ + _
    rw [e2, List.countP_append, e1]
    simp at this
    omega
  · intro _
    show s.limit.toNat ≤ s.n.toNat + _ + _
    omega

theorem Wk.step {s : St} (h : WF s none) (v : Wk s none) (e : Ev) (hl : Leaves s e) (hz : Counts s (s.step e)) :
    (s.step e).ub = true ∨ Wk (s.step e) none := by
  by_cases hu : s.ub = true
  · left; simp [St.step, hu]
  · have hu' : s.ub = false := by simpa using hu
    revert hz
    cases e with
    | mkR =>
      intro _
      right
      simp only [St.step, hu', Bool.false_eq_true, if_false]
      have hn := h.rnew s.nextR (Nat.le_refl _)
      refine v.frame rfl rfl rfl (fun h => h) (fun h => h) fun x hx => ?_
      rcases hx with hx | hx
      · cases x with
        | w j => exact ⟨rfl, rfl⟩
        | r j =>
          have hj : j ≠ s.nextR := by
            rintro rfl
            have := (h.rpost _ hx).1
            rw [hn] at this; exact absurd this (by simp)
          simp [St.takes, St.puts, upd_apply, hj]
      · cases hx
    | mkW =>
      intro _
      right
      simp only [St.step, hu', Bool.false_eq_true, if_false]
      have hn := h.wnew s.nextW (Nat.le_refl _)
      refine v.frame rfl rfl rfl (fun h => h) (fun h => h) fun x hx => ?_
      rcases hx with hx | hx
      · cases x with
        | r j => exact ⟨rfl, rfl⟩
        | w j =>
          have hj : j ≠ s.nextW := by
            rintro rfl
            have := (h.wpost _ hx).1
            rw [hn] at this; exact absurd this (by simp)
          simp [St.takes, St.puts, upd_apply, hj]
      · cases hx
    | awaitR i conn txn hits =>
      simp only [St.step, hu', Bool.false_eq_true, if_false]
      rw [awaitR_eq]
      split
      · exact fun _ => Or.inr v
      · rename_i hf
        simp only [ne_eq, Decidable.not_not] at hf
        split
        · exact fun hz => Wk.resumeR (h.grabR hf) (v.weaken _) hz.1
        · rename_i hn
          simp only [St.readReady, not_or, Bool.not_eq_true, Bool.or_eq_false_iff] at hn
          have hn1 : s.n.toNat = 0 := by
            have := hn.1.1
            rw [BitVec.ult_eq_decide] at this
            simpa using this
          split
          · rename_i hq
            intro _
            right
            refine ⟨fun _ => ?_, fun hh => absurd hq hh⟩
            show s.n.toNat ≤ _ + _
            rw [hn1]; simp
          · rename_i w rest hq
            split
            · rename_i hw
              intro hz
              have hw1 := h.handR txn hf hn.2 hq hw
              have v2 := v.handR h txn hf hn1 hw
              refine Wk.resumeW (hw1.hits _) (v2.hits _ (by simp [St.HasValue, St.handR, St.takeFrom, upd_apply]) ?_) ?_
              swap
              · rw [hits_n]; exact hz.2
              intro x hx hm
              have hx' : x ∈ hits := by
                revert hx; split
                · exact id
                · simp
              have hm : x ∈ s.posted ++ [.r i] := hm
              rw [List.mem_append] at hm
              rcases hm with hm | hm
              · exact absurd hm (hl x hx')
              · simp only [List.mem_singleton] at hm
                subst hm
                simp [St.handR, St.takeFrom, upd_apply]
            · exact fun _ => Or.inl rfl
    | awaitW i conn txn hits =>
      simp only [St.step, hu', Bool.false_eq_true, if_false]
      rw [awaitW_eq]
      split
      · exact fun _ => Or.inr v
      · rename_i hf
        simp only [ne_eq, Decidable.not_not] at hf
        split
        · exact fun hz => Wk.resumeW (h.grabW hf) (v.weaken _) hz.2
        · rename_i hn
          simp only [St.writeReady, not_or, Bool.not_eq_true, Bool.or_eq_false_iff] at hn
          have hn1 : s.limit.toNat ≤ s.n.toNat := by
            have := hn.1.1
            rw [BitVec.ult_eq_decide] at this
            simpa using this
          have hk : (s.W i).closedF = false := by
            have := h.wclosed i
            have := hn.1.2
            grind
          split
          · rename_i hq
            intro _
            right
            refine ⟨fun hh => absurd hq hh, fun _ => ?_⟩
            show s.limit.toNat ≤ s.n.toNat + _ + _
            omega
          · rename_i w rest hq
            split
            · rename_i hw
              intro hz
              have hw1 := h.handW txn hf hn.2 hk hq hw
              have v2 := v.handW h txn hf hn1 hw
              refine Wk.resumeR (hw1.hits _) (v2.hits _ (by simp [St.HasValue, St.handW, St.giveTo, upd_apply]) ?_) ?_
              swap
              · rw [hits_n]; exact hz.1
              intro x hx hm
              have hx' : x ∈ hits := by
                revert hx; split
                · exact id
                · simp
              have hm : x ∈ s.posted ++ [.w i] := hm
              rw [List.mem_append] at hm
              rcases hm with hm | hm
              · exact absurd hm (hl x hx')
              · simp only [List.mem_singleton] at hm
                subst hm
                simp [St.handW, St.giveTo, upd_apply]
            · exact fun _ => Or.inl rfl
    | run k =>
      simp only [St.step, hu', Bool.false_eq_true, if_false]
      unfold St.run
      split
      · exact fun _ => Or.inr v
      · rename_i i hk
        exact fun hz => Wk.resumeR (h.unpost hk) (v.unpost hk) hz.1
      · rename_i i hk
        exact fun hz => Wk.resumeW (h.unpost hk) (v.unpost hk) hz.2
    | cancelR i =>
      intro _
      right
      simp only [St.step, hu', Bool.false_eq_true, if_false]; unfold St.cancelR
      split
      · rename_i hs
        have hl : Tok.r i ∉ s.posted := hl
        have hw : (s.R i).waiting = true := by
          have h1 := (h.rslot i hs).1
          rcases h.rsusp i h1 with h2 | h2 | h2
          · exact h2
          · exact absurd h2 hl
          · cases h2
        rw [if_pos hw]
        constructor
        · intro hq
          have := v.r (by rintro e; apply hq; simp [e])
          have e1 : s.posted.countP (St.takes { s with
              R := upd s.R i { s.R i with cancelled := true, slot := false, waiting := false },
              rq := s.rq.erase i, posted := s.posted ++ [.r i] }) = s.posted.countP s.takes := countP_eq fun x hx => by
            cases x with
            | w k => rfl
            | r k =>
              have hj : k ≠ i := fun e => hl (e ▸ hx)
              simp [St.takes, upd_apply, hj]
          show s.n.toNat ≤ (s.posted ++ [Tok.r i]).countP _ + _
          rw [List.countP_append, e1]
          simp at this
          omega
        · intro hq
          have := v.w hq
          show s.limit.toNat ≤ s.n.toNat + (s.posted ++ [Tok.r i]).countP s.puts + _
          rw [List.countP_append]
          simp at this
          omega
      · exact v
    | cancelW i =>
      intro _
      right
      simp only [St.step, hu', Bool.false_eq_true, if_false]; unfold St.cancelW
      split
      · rename_i hs
        have hl : Tok.w i ∉ s.posted := hl
        have hw : (s.W i).waiting = true := by
          have h1 := (h.wslot i hs).1
          rcases h.wsusp i h1 with h2 | h2 | h2
          · exact h2
          · exact absurd h2 hl
          · cases h2
        rw [if_pos hw]
        constructor
        · intro hq
          have := v.r hq
          show s.n.toNat ≤ (s.posted ++ [Tok.w i]).countP s.takes + _
          rw [List.countP_append]
          simp at this
          omega
        · intro hq
          have := v.w (by rintro e; apply hq; simp [e])
          have e1 : s.posted.countP (St.puts { s with
              W := upd s.W i { s.W i with cancelled := true, slot := false, waiting := false },
              wq := s.wq.erase i, posted := s.posted ++ [.w i] }) = s.posted.countP s.puts := countP_eq fun x hx => by
            cases x with
            | r k => rfl
            | w k =>
              have hj : k ≠ i := fun e => hl (e ▸ hx)
              simp [St.puts, upd_apply, hj]
          show s.limit.toNat ≤ s.n.toNat + (s.posted ++ [Tok.w i]).countP _ + _
          rw [List.countP_append, e1]
          simp at this
          omega
      · exact v
    | intR i =>
      intro _
      right
      have := (v.int (.r i) (fun hm => absurd hm hl) (by simp)).1
      simpa [St.step, hu, St.int] using this
    | intW i =>
      intro _
      right
      have := (v.int (.w i) (fun hm => absurd hm hl) (by simp)).1
      simpa [St.step, hu, St.int] using this
    | dropR i =>
      intro _
      right
      simp only [St.step, hu', Bool.false_eq_true, if_false]; unfold St.dropR
      split
      · refine v.frame rfl rfl rfl (fun hq e => hq (by simp [e])) (fun h => h) fun x hx => ?_
        cases x with
        | w j => exact ⟨rfl, rfl⟩
        | r j => simp only [St.takes, St.puts, upd_apply]; grind
      · exact v
    | dropW i =>
      intro _
      right
      simp only [St.step, hu', Bool.false_eq_true, if_false]; unfold St.dropW
      split
      · refine v.frame rfl rfl rfl (fun h => h) (fun hq e => hq (by simp [e])) fun x hx => ?_
        cases x with
        | r j => exact ⟨rfl, rfl⟩
        | w j => simp only [St.takes, St.puts, upd_apply]; grind
      · exact v
    | close =>
      intro _
      right
      simp only [St.step, hu', Bool.false_eq_true, if_false]
      exact ⟨fun h => absurd rfl h, fun h => absurd rfl h⟩

theorem wk_exec (es : List Ev) : ∀ {s : St}, s.ub = true ∨ (WF s none ∧ Wk s none) → LeavesAll s es → CountsAll s es →
    (s.steps es).ub = true ∨ (WF (s.steps es) none ∧ Wk (s.steps es) none) := by
  induction es with
  | nil => exact fun h _ _ => h
  | cons e es ih =>
    intro s h hl hz
    refine ih ?_ hl.2 hz.2
    rcases h with h | ⟨h, v⟩
    · left; simp [St.step, h]
    · rcases h.step e with h1 | h1
      · exact Or.inl h1
      · rcases v.step h e hl.1 hz.1 with h2 | h2
        · exact Or.inl h2
        · exact Or.inr ⟨h1, h2⟩

end Cobalt.VChan
