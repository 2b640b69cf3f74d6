/-! Helper: queues from which only the head is taken, or what is named. -/
namespace Cobalt

/-- A queue, who waits, and who has been waiting. -/
structure QV where
  q : List Nat
  wt : Nat → Bool
  old : Nat → Bool

/-- Nobody overtakes anybody, except those in `X`. -/
def QV.Rel (X : Nat → Prop) (s s' : QV) : Prop :=
  s.q.Nodup → s'.q.Nodup ∧ (∀ i, s'.wt i = true → s.wt i = true) ∧
    (∀ i j, [i, j].Sublist s.q → s'.wt i = true → s'.wt j = true → [i, j].Sublist s'.q) ∧
    (∀ i j, ¬X j → [i, j].Sublist s.q → s.wt j = true → s'.wt i = true → s'.wt j = true) ∧
    (∀ i, s.old i = true → s'.old i = true)

/-- Somebody comes. -/
def QV.Add (s s' : QV) : Prop :=
  ∃ x, x ∉ s.q ∧ s'.q = s.q ++ [x] ∧ s.wt x = false ∧ s'.wt x = true ∧ s.old x = false ∧
    ∀ y, y ≠ x → s'.wt y = s.wt y ∧ s'.old y = s.old y

theorem QV.Rel.refl (X : Nat → Prop) (s : QV) : QV.Rel X s s :=
  fun h => ⟨h, fun _ h => h, fun _ _ h _ _ => h, fun _ _ _ _ h _ => h, fun _ h => h⟩

theorem QV.Rel.of_eq {X : Nat → Prop} {s s' : QV} (h : s' = s) : QV.Rel X s s' := h ▸ QV.Rel.refl X s

theorem QV.Rel.trans {X X' Y : Nat → Prop} {s s' s'' : QV} (h : QV.Rel X s s') (h' : QV.Rel X' s' s'')
    (h1 : ∀ j, X j → s.wt j = true → Y j) (h2 : ∀ j, X' j → s.wt j = true → s'.wt j = true → Y j) : QV.Rel Y s s'' := by
  intro hn
  obtain ⟨a1, a2, a3, a4, a5⟩ := h hn
  obtain ⟨b1, b2, b3, b4, b5⟩ := h' a1
  refine ⟨b1, fun i hi => a2 i (b2 i hi), fun i j hs hi hj => b3 i j (a3 i j hs (b2 i hi) (b2 j hj)) hi hj, ?_, fun i h => b5 i (a5 i h)⟩
  intro i j hY hs hj hi
  have c1 := a4 i j (fun hx => hY (h1 j hx hj)) hs hj (b2 i hi)
  exact b4 i j (fun hx => hY (h2 j hx hj c1)) (a3 i j hs (b2 i hi) c1) c1 hi

theorem QV.Rel.weaken {X Y : Nat → Prop} {s s' : QV} (h : QV.Rel X s s') (h1 : ∀ j, X j → s.wt j = true → Y j) :
    QV.Rel Y s s' := h.trans (QV.Rel.refl (fun _ => False) s') h1 (fun _ h => h.elim)

theorem QV.Rel.via {X : Nat → Prop} {s s1 s' : QV} (h : QV.Rel X s1 s') (he : s1 = s) : QV.Rel X s s' := he ▸ h

/-- At most `x` stops waiting or leaves the queue; it is the first, or in `X`. -/
theorem QV.Rel.drop {X : Nat → Prop} {s s' : QV} (x : Nat) (hw : ∀ y, y ≠ x → s'.wt y = s.wt y)
    (hq : s'.q = s.q ∨ s'.q = s.q.erase x) (hx : s'.wt x = false ∨ (s'.wt x = s.wt x ∧ s'.q = s.q))
    (ho : ∀ y, s.old y = true → s'.old y = true) (hX : s'.wt x = s.wt x ∨ X x ∨ s.q.head? = some x) : QV.Rel X s s' := by
  intro hn
  refine ⟨?_, fun i hi => ?_, fun i j hs hi hj => ?_, fun i j hY hs hj hi => ?_, ho⟩
  · rcases hq with hq | hq
    · rw [hq]; exact hn
    · rw [hq]; exact hn.erase x
  · by_cases h : i = x
    · subst h
      rcases hx with hx | hx
      · rw [hx] at hi; cases hi
      · rw [← hx.1]; exact hi
    · rw [← hw i h]; exact hi
  · rcases hq with hq | hq
    · rw [hq]; exact hs
    · rcases hx with hx | hx
      · have h1 : i ≠ x := by rintro rfl; rw [hx] at hi; cases hi
        have h2 : j ≠ x := by rintro rfl; rw [hx] at hj; cases hj
        have := hs.erase x
        rw [List.erase_of_not_mem (by simp [h1.symm, h2.symm])] at this
        rw [hq]; exact this
      · rw [hx.2]; exact hs
  · by_cases h : j = x
    · subst h
      rcases hX with hX | hX | hX
      · rw [hX]; exact hj
      · exact (hY hX).elim
      · exfalso
        cases hl : s.q with
        | nil => rw [hl] at hX; cases hX
        | cons a l =>
          rw [hl] at hX hs hn
          cases hX
          have hij : i ≠ j := by
            rintro rfl
            have := hs.nodup hn
            simp at this
          have : j ∈ l := by
            cases hs with
            | cons _ h => exact h.subset (by simp)
            | cons_cons _ h => exact (hij rfl).elim
          exact (List.nodup_cons.mp hn).1 this
    · rw [hw j h]; exact hj

end Cobalt
