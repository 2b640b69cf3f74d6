import Verif.Net.Meet2
/-! Helper: the order of meetings does not matter. -/
namespace Cobalt.Net
open Chan (upd)

/-- Who has not got as far as elsewhere can go on as there. -/
theorem add_le {N : Prog} {H H1 H' : Nat → List Res} (m : MI N H) (m' : MI N H') (hle : ∀ q, H1 q <+: H q)
    (g : Grow H1 H') (r : Nat) (hne : H' r ≠ H1 r → H1 r ≠ H r) : H' r <+: H r := by
  rcases g r with e | ⟨x, e⟩
  · rw [e]; exact hle r
  · obtain ⟨t, ht⟩ := hle r
    cases t with
    | nil =>
      rw [List.append_nil] at ht
      exact absurd ht (hne (by rw [e]; simp))
    | cons y ys =>
      have a := m'.res r (H1 r) x (by rw [e]; exact List.prefix_refl _)
      have b := m.res r (H1 r) y ⟨ys, by rw [← ht]; simp⟩
      have hxy := came_agree (W := offH N H) (fun q => (g.off q).trans (off_mono _ (hle q)))
        (fun q => List.prefix_append _ _) a b
      subst hxy
      rw [e, ← ht]; exact ⟨ys, by simp⟩

/-- Who has got further has done the next thing. -/
theorem off_did {N : Prog} {H H1 : Nat → List Res} {q : Nat} (h : H1 q <+: H q) (hne : H1 q ≠ H q) :
    offH N H1 q <+: did N H q := by
  obtain ⟨t, ht⟩ := h
  cases t with
  | nil => rw [List.append_nil] at ht; exact absurd ht hne
  | cons y ys =>
    unfold offH did
    rw [← done_snoc _ _ y]
    exact done_mono _ ⟨ys, by rw [← ht]; simp⟩

theorem Meets.le_stuck {N : Prog} (hN : N.proper) {H H' : Nat → List Res} (h : Meets N H) (hs : Stuck N H)
    (h' : Meets N H') : ∀ p, H' p <+: H p := by
  have m := Meets.mi hN h
  induction h' with
  | start => exact fun p => List.nil_prefix
  | @close H1 p c h1 hc ih =>
    intro r
    refine add_le m (Meets.mi hN (.close h1 hc)) ih (grow_add _ _ _) r fun hne he => ?_
    by_cases e : r = p
    · subst e; rw [he] at hc; exact hs.close _ _ hc
    · exact hne (upd_ne _ _ e)
  | @ended H1 p c h1 hr hcl ih =>
    intro r
    refine add_le m (Meets.mi hN (.ended h1 hr hcl)) ih (grow_add _ _ _) r fun hne he => ?_
    by_cases e : r = p
    · subst e; rw [he] at hr
      exact hs.ended _ _ hr ((done_mono _ (ih (N.wr c))).subset hcl)
    · exact hne (upd_ne _ _ e)
  | @shut H1 p c v h1 hw hcl ih =>
    intro r
    refine add_le m (Meets.mi hN (.shut h1 hw hcl)) ih (grow_add _ _ _) r fun hne he => ?_
    by_cases e : r = p
    · subst e; rw [he] at hw hcl
      exact hs.shut _ _ _ hw hcl
    · exact hne (upd_ne _ _ e)
  | @meet H1 p q c v h1 hr hw ho ih =>
    have hqp := Meets.ne hr hw
    have hp := hN.read _ _ _ hr
    have hq := hN.write _ _ _ _ hw
    have ho' : Act.close c ∉ did N H1 q := ho
    have hcnt : nreads c (did N H1 p) = (wrote c (did N H1 q)).length := by
      have := (Meets.mi hN h1).opn c (by rw [hq]; exact ho)
      rw [hp, hq] at this; exact this
    -- both have gone on there
    have both : H1 p ≠ H p ∧ H1 q ≠ H q := by
      by_cases e1 : H1 p = H p <;> by_cases e2 : H1 q = H q
      · exfalso
        rw [e1] at hr; rw [e2] at hw ho
        exact ho (hs.meet p q c v hr hw)
      · exfalso
        have h2 := (sent_mono c (off_did (N := N) (ih q) e2)).length_le
        unfold offH at h2
        rw [hw, sent_snoc] at h2
        simp [ho'] at h2
        have h3 := sent_open ho'
        have e3 : did N H p = did N H1 p := by unfold did; rw [e1]
        by_cases hc : Act.close c ∈ did N H (N.wr c)
        · have h4 := m.cls c hc
          rw [hp, hq, e3] at h4
          omega
        · have h4 := m.opn c hc
          have h5 := (sent_wrote c (did N H q)).length_le
          rw [hp, hq, e3] at h4
          omega
      · exfalso
        have h2 := nreads_mono c (off_did (N := N) (ih p) e1)
        rw [nreads_off hr] at h2
        have e3 : did N H q = did N H1 q := by unfold did; rw [e2]
        have h4 := m.opn c (by rw [hq, e3]; exact ho')
        rw [hp, hq, e3] at h4
        omega
      · exact ⟨e1, e2⟩
    intro r
    refine add_le m (Meets.mi hN (.meet h1 hr hw ho)) ih (grow_meet H1 hqp _ _) r fun hne he => ?_
    by_cases e : r = q
    · subst e; exact both.2 he
    · rw [upd_ne _ _ e] at hne
      by_cases e' : r = p
      · subst e'; exact both.1 he
      · exact hne (upd_ne _ _ e')

end Cobalt.Net
