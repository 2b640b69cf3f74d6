import Verif.Chan.WakeLemmas
import Verif.Chan.WakeSpec
/-!
# Lemmas for C97: one step
-/
namespace Cobalt.Chan

theorem Wk.handR {s : St} {i w : Nat} (h : WF s none) (v : Wk s none) (txn : Bool)
    (hf : (s.R i).status = .fresh) (hb : s.buf = []) (hw : (s.W w).waiting = true) :
    Wk ((s.takeFrom i w txn).handR i w) (some (.w w)) := by
  have hnr : Tok.r i ∉ s.posted := fun hm => by
    have := (h.rpost i hm).1
    rw [hf] at this; exact absurd this (by simp)
  have hnw : Tok.w w ∉ s.posted := fun hm => by
    have := (h.wpost w hm).2.1
    rw [hw] at this; exact absurd this (by simp)
  constructor
  · intro _
    show s.buf.length ≤ _
    rw [hb]; simp
  · intro hq
    have hq' : s.wq ≠ [] := by
      rintro e
      apply hq
      simp [St.handR, St.takeFrom, e]
    have := v.w hq'
    have e1 : s.posted.countP ((s.takeFrom i w txn).handR i w).puts = s.posted.countP s.puts := countP_eq fun x hx => by
      cases x with
      | r j => rfl
      | w j =>
        have hj : j ≠ w := fun e => hnw (e ▸ hx)
        simp [St.puts, St.handR, St.takeFrom, upd_apply, hj]
    have e2 : ((s.takeFrom i w txn).handR i w).posted = s.posted ++ [.r i] := rfl
    show s.cap ≤ s.buf.length + _ + _
    rw [e2, List.countP_append, e1]
    simp at this
    omega

theorem Wk.handW {s : St} {i j : Nat} (h : WF s none) (v : Wk s none) (txn : Bool)
    (hf : (s.W i).status = .fresh) (hb : s.buf.length = s.cap) (hw : (s.R j).waiting = true) :
    Wk ((s.giveTo i j txn).handW i j) (some (.r j)) := by
  have hnr : Tok.r j ∉ s.posted := fun hm => by
    have := (h.rpost j hm).2.1
    rw [hw] at this; exact absurd this (by simp)
  constructor
  · intro hq
    have hq' : s.rq ≠ [] := by
      rintro e
      apply hq
      simp [St.handW, St.giveTo, e]
    have := v.r hq'
    have e1 : s.posted.countP ((s.giveTo i j txn).handW i j).takes = s.posted.countP s.takes := countP_eq fun x hx => by
      cases x with
      | w k => rfl
      | r k =>
        have hj : k ≠ j := fun e => hnr (e ▸ hx)
        simp [St.takes, St.handW, St.giveTo, upd_apply, hj]
    have e2 : ((s.giveTo i j txn).handW i j).posted = s.posted ++ [.w i] := rfl
    show s.buf.length ≤ _ + _
    rw [e2, List.countP_append, e1]
    simp at this
    omega
  · intro _
    show s.cap ≤ s.buf.length + _ + _
    omega

theorem Wk.step {s : St} (h : WF s none) (v : Wk s none) (e : Ev) (hl : Leaves s e) :
    (s.step e).ub = true ∨ Wk (s.step e) none := by
  by_cases hu : s.ub = true
  · left; simp [St.step, hu]
  · have hu' : s.ub = false := by simpa using hu
    cases e with
    | mkR =>
      right
      simp only [St.step, hu', Bool.false_eq_true, if_false]
      have hn := h.rnew s.nextR (Nat.le_refl _)
      refine v.frame rfl rfl rfl (fun h => h) (fun h => h) fun x hx => ?_
      rcases hx with hx | hx
      · cases x with
        | w j => exact ⟨rfl, rfl⟩
        | r j =>
          have hj : j ≠ s.nextR := by
            rintro rfl
            have := (h.rpost _ hx).1
            rw [hn] at this; exact absurd this (by simp)
          simp [St.takes, St.puts, upd_apply, hj]
      · cases hx
    | mkW =>
      right
      simp only [St.step, hu', Bool.false_eq_true, if_false]
      have hn := h.wnew s.nextW (Nat.le_refl _)
      refine v.frame rfl rfl rfl (fun h => h) (fun h => h) fun x hx => ?_
      rcases hx with hx | hx
      · cases x with
        | r j => exact ⟨rfl, rfl⟩
        | w j =>
          have hj : j ≠ s.nextW := by
            rintro rfl
            have := (h.wpost _ hx).1
            rw [hn] at this; exact absurd this (by simp)
          simp [St.takes, St.puts, upd_apply, hj]
      · cases hx
    | awaitR i conn txn hits =>
      simp only [St.step, hu', Bool.false_eq_true, if_false]
      rw [awaitR_eq]
      split
      · exact Or.inr v
      · rename_i hf
        simp only [ne_eq, Decidable.not_not] at hf
        have hlg := h.logged (s.log ++ [Obs.startR i])
        have v1 : Wk { s with log := s.log ++ [Obs.startR i] } none := ⟨v.r, v.w⟩
        dsimp only
        split
        · exact Wk.resumeR (hlg.grabR hf) (v1.weaken _)
        · rename_i hn
          simp only [St.readReady, not_or, Bool.not_eq_true, Bool.or_eq_false_iff, decide_eq_false_iff_not,
            Decidable.not_not] at hn
          split
          · rename_i hq
            right
            refine ⟨fun _ => ?_, fun hh => absurd hq hh⟩
            show s.buf.length ≤ _ + _
            rw [hn.1.1]; simp
          · rename_i w rest hq
            split
            · rename_i hw
              have hw1 := hlg.handR txn hf hn.2 hq hw
              have v2 := v1.handR hlg txn hf hn.1.1 hw
              refine Wk.resumeW (hw1.hits _) (v2.hits _ (by simp [St.HasValue, St.handR, St.takeFrom, upd_apply]) ?_)
              intro x hx hm
              have hx' : x ∈ hits := by
                revert hx; split
                · exact id
                · simp
              have hm : x ∈ s.posted ++ [.r i] := hm
              rw [List.mem_append] at hm
              rcases hm with hm | hm
              · exact absurd hm (hl x hx')
              · simp only [List.mem_singleton] at hm
                subst hm
                simp [St.handR, St.takeFrom, upd_apply]
            · exact Or.inl rfl
    | awaitW i conn txn hits =>
      simp only [St.step, hu', Bool.false_eq_true, if_false]
      rw [awaitW_eq]
      split
      · exact Or.inr v
      · rename_i hf
        simp only [ne_eq, Decidable.not_not] at hf
        have hlg := h.logged (s.log ++ [Obs.startW i])
        have v1 : Wk { s with log := s.log ++ [Obs.startW i] } none := ⟨v.r, v.w⟩
        dsimp only
        split
        · exact Wk.resumeW (hlg.grabW hf) (v1.weaken _)
        · rename_i hn
          simp only [St.writeReady, not_or, Bool.not_eq_true, Bool.or_eq_false_iff, decide_eq_false_iff_not,
            Decidable.not_not, ne_eq] at hn
          have hk : (s.W i).closedF = false := by
            have := h.wclosed i
            have := hn.1.2
            grind
          split
          · rename_i hq
            right
            refine ⟨fun hh => absurd hq hh, fun _ => ?_⟩
            show s.cap ≤ s.buf.length + _ + _
            omega
          · rename_i w rest hq
            split
            · rename_i hw
              have hw1 := hlg.handW txn hf hn.2 hk hq hw
              have v2 := v1.handW hlg txn hf hn.1.1 hw
              refine Wk.resumeR (hw1.hits _) (v2.hits _ (by simp [St.HasValue, St.handW, St.giveTo, upd_apply]) ?_)
              intro x hx hm
              have hx' : x ∈ hits := by
                revert hx; split
                · exact id
                · simp
              have hm : x ∈ s.posted ++ [.w i] := hm
              rw [List.mem_append] at hm
              rcases hm with hm | hm
              · exact absurd hm (hl x hx')
              · simp only [List.mem_singleton] at hm
                subst hm
                simp [St.handW, St.giveTo, upd_apply]
            · exact Or.inl rfl
    | run k =>
      simp only [St.step, hu', Bool.false_eq_true, if_false]
      unfold St.run
      split
      · exact Or.inr v
      · rename_i i hk
        exact Wk.resumeR (h.unpost hk) (v.unpost hk)
      · rename_i i hk
        exact Wk.resumeW (h.unpost hk) (v.unpost hk)
    | cancelR i =>
      right
      simp only [St.step, hu', Bool.false_eq_true, if_false]; unfold St.cancelR
      split
      · rename_i hs
        have hl : Tok.r i ∉ s.posted := hl
        have hw : (s.R i).waiting = true := by
          have h1 := (h.rslot i hs).1
          rcases h.rsusp i h1 with h2 | h2 | h2
          · exact h2
          · exact absurd h2 hl
          · cases h2
        rw [if_pos hw]
        constructor
        · intro hq
          have := v.r (by rintro e; apply hq; simp [e])
          have e1 : s.posted.countP (St.takes { s with
              R := upd s.R i { s.R i with cancelled := true, slot := false, waiting := false },
              rq := s.rq.erase i, posted := s.posted ++ [.r i] }) = s.posted.countP s.takes := countP_eq fun x hx => by
            cases x with
            | w k => rfl
            | r k =>
              have hj : k ≠ i := fun e => hl (e ▸ hx)
              simp [St.takes, upd_apply, hj]
          show s.buf.length ≤ (s.posted ++ [Tok.r i]).countP _ + _
          rw [List.countP_append, e1]
          simp at this
          omega
        · intro hq
          have := v.w hq
          show s.cap ≤ s.buf.length + (s.posted ++ [Tok.r i]).countP s.puts + _
          rw [List.countP_append]
          simp at this
          omega
      · exact v
    | cancelW i =>
      right
      simp only [St.step, hu', Bool.false_eq_true, if_false]; unfold St.cancelW
      split
      · rename_i hs
        have hl : Tok.w i ∉ s.posted := hl
        have hw : (s.W i).waiting = true := by
          have h1 := (h.wslot i hs).1
          rcases h.wsusp i h1 with h2 | h2 | h2
          · exact h2
          · exact absurd h2 hl
          · cases h2
        rw [if_pos hw]
        constructor
        · intro hq
          have := v.r hq
          show s.buf.length ≤ (s.posted ++ [Tok.w i]).countP s.takes + _
          rw [List.countP_append]
          simp at this
          omega
        · intro hq
          have := v.w (by rintro e; apply hq; simp [e])
          have e1 : s.posted.countP (St.puts { s with
              W := upd s.W i { s.W i with cancelled := true, slot := false, waiting := false },
              wq := s.wq.erase i, posted := s.posted ++ [.w i] }) = s.posted.countP s.puts := countP_eq fun x hx => by
            cases x with
            | r k => rfl
            | w k =>
              have hj : k ≠ i := fun e => hl (e ▸ hx)
              simp [St.puts, upd_apply, hj]
          show s.cap ≤ s.buf.length + (s.posted ++ [Tok.w i]).countP _ + _
          rw [List.countP_append, e1]
          simp at this
          omega
      · exact v
    | intR i =>
      right
      have := (v.int (.r i) (fun hm => absurd hm hl) (by simp)).1
      simpa [St.step, hu, St.int] using this
    | intW i =>
      right
      have := (v.int (.w i) (fun hm => absurd hm hl) (by simp)).1
      simpa [St.step, hu, St.int] using this
    | dropR i =>
      right
      simp only [St.step, hu', Bool.false_eq_true, if_false]; unfold St.dropR
      split
      · refine v.frame rfl rfl rfl (fun hq e => hq (by simp [e])) (fun h => h) fun x hx => ?_
        cases x with
        | w j => exact ⟨rfl, rfl⟩
        | r j => simp only [St.takes, St.puts, upd_apply]; grind
      · exact v
    | dropW i =>
      right
      simp only [St.step, hu', Bool.false_eq_true, if_false]; unfold St.dropW
      split
      · refine v.frame rfl rfl rfl (fun h => h) (fun hq e => hq (by simp [e])) fun x hx => ?_
        cases x with
        | r j => exact ⟨rfl, rfl⟩
        | w j => simp only [St.takes, St.puts, upd_apply]; grind
      · exact v
    | close =>
      right
      simp only [St.step, hu', Bool.false_eq_true, if_false]
      exact ⟨fun h => absurd rfl h, fun h => absurd rfl h⟩

theorem wk_exec (es : List Ev) : ∀ {s : St}, s.ub = true ∨ (WF s none ∧ Wk s none) → LeavesAll s es →
    (s.steps es).ub = true ∨ (WF (s.steps es) none ∧ Wk (s.steps es) none) := by
  induction es with
  | nil => exact fun h _ => h
  | cons e es ih =>
    intro s h hl
    refine ih ?_ hl.2
    rcases h with h | ⟨h, v⟩
    · left; simp [St.step, h]
    · rcases h.step e with h1 | h1
      · exact Or.inl h1
      · rcases v.step h e hl.1 with h2 | h2
        · exact Or.inl h2
        · exact Or.inr ⟨h1, h2⟩

end Cobalt.Chan
