import Verif.Lfq.Lemmas
/-
How a thread got to where it is.
-/
namespace Cobalt.Lfq

theorem run_app (cap n a b) : run cap n (a ++ b) = b.foldl St.step (run cap n a) := by
  simp [run]

theorem bad_keep {s : St} {x : Bad} (h : s.bad = some x) (l : List Ev) : (l.foldl St.step s).bad = some x := by
  induction l generalizing s with
  | nil => exact h
  | cons e l ih => rw [List.foldl_cons, step_bad e (by simp [h])]; exact ih h

theorem run_bad_keep {cap n a b x} (h : (run cap n a).bad = some x) : (run cap n (a ++ b)).bad = some x := by
  rw [run_app]; exact bad_keep h b

theorem run_none {cap n a b} (h : (run cap n (a ++ b)).bad = none) : (run cap n a).bad = none := by
  cases hx : (run cap n a).bad with
  | none => rfl
  | some x => rw [run_bad_keep hx] at h; cases h

theorem Does_nil {cap n P e a} : ¬ Does cap n P e a [] := by
  rintro ⟨b₁, b₂, h, -⟩
  cases b₁ <;> simp at h

theorem Does_snoc {cap n P e a b x} :
    Does cap n P e a (b ++ [x]) ↔ Does cap n P e a b ∨ x = e ∧ P (run cap n (a ++ b)) := by
  constructor
  · rintro ⟨b₁, b₂, h, hp⟩
    rcases List.eq_nil_or_concat b₂ with rfl | ⟨b₃, y, rfl⟩
    · rw [show b₁ ++ [e] = b₁ ++ [e] from rfl] at h
      have h' := List.append_inj' h rfl
      obtain ⟨rfl, h2⟩ := h'
      simp at h2
      exact .inr ⟨h2, hp⟩
    · have : b ++ [x] = (b₁ ++ e :: b₃) ++ [y] := by simpa using h
      have h' := List.append_inj' this rfl
      exact .inl ⟨b₁, b₃, h'.1, hp⟩
  · rintro (⟨b₁, b₂, rfl, hp⟩ | ⟨rfl, hp⟩)
    · exact ⟨b₁, b₂ ++ [x], by simp, hp⟩
    · exact ⟨b, [], rfl, hp⟩

/-- How `e` got to where it is. -/
structure Track (cap n : Nat) (e : Ev) (h : List Ev) : Prop where
  late : (run cap n h).ph e = .late → ∃ a b, h = a ++ e :: b ∧ (run cap n a).Finds e ∧
    (∀ x ∈ b, x = e.other) ∧ ((run cap n h).Blk e ↔ ¬ Moves cap n e.other (a ++ [e]) b)
  asleep : (run cap n h).ph e = .asleep → ∃ a b c, h = a ++ e :: (b ++ e :: c) ∧ (run cap n a).Finds e ∧
    (∀ x ∈ b, x = e.other) ∧ ¬ Looks cap n e.other (a ++ e :: (b ++ [e])) c ∧
    ((run cap n h).Blk e ↔ ¬ Moves cap n e.other (a ++ [e]) b ∧ ¬ Moves cap n e.other (a ++ e :: (b ++ [e])) c) ∧
    (Moves cap n e.other (a ++ e :: (b ++ [e])) c → (run cap n h).ph e.other = .after)
  posted : (run cap n h).ph e = .posted → ∃ a b, h = a ++ e :: b ∧ (run cap n a).Finds e ∧
    ((run cap n h).Blk e ↔ ¬ Moves cap n e.other (a ++ [e]) b)
  go : (run cap n h).ph e = .go → (run cap n h).Blk e → ∃ a b, h = a ++ e :: b ∧ (run cap n a).Finds e ∧
    ((run cap n h).Blk e ↔ ¬ Moves cap n e.other (a ++ [e]) b)

theorem Moves_mid {cap n e a b c} :
    Moves cap n e.other (a ++ [e]) (b ++ e :: c) ↔
      Moves cap n e.other (a ++ [e]) b ∨ Moves cap n e.other (a ++ e :: (b ++ [e])) c := by
  suffices ∀ l : List Ev, Does cap n (fun s => s.ph e.other = .go) e.other (a ++ [e]) (b ++ e :: l.reverse) ↔
      Does cap n (fun s => s.ph e.other = .go) e.other (a ++ [e]) b ∨
      Does cap n (fun s => s.ph e.other = .go) e.other (a ++ e :: (b ++ [e])) l.reverse by
    have := this c.reverse
    rwa [List.reverse_reverse] at this
  intro l
  induction l with
  | nil =>
    rw [List.reverse_nil, Does_snoc]
    constructor
    · rintro (h | ⟨h, -⟩)
      · exact .inl h
      · exact absurd h.symm (other_ne e)
    · rintro (h | h)
      · exact .inl h
      · exact absurd h Does_nil
  | cons x l ih =>
    rw [List.reverse_cons, show b ++ e :: (l.reverse ++ [x]) = (b ++ e :: l.reverse) ++ [x] by simp,
      Does_snoc, Does_snoc, ih,
      show a ++ [e] ++ (b ++ e :: l.reverse) = a ++ e :: (b ++ [e]) ++ l.reverse by simp]
    constructor
    · rintro ((h | h) | h)
      · exact .inl h
      · exact .inr (.inl h)
      · exact .inr (.inr h)
    · rintro (h | h | h)
      · exact .inl (.inl h)
      · exact .inl (.inr h)
      · exact .inr h

theorem Track.init (cap n e) : Track cap n e [] := by
  constructor <;> intro h <;> exfalso <;> revert h <;> cases e <;> simp [run, St.init, St.ph]

/-- While `e` waits, a turn of the other one moves a value or leaves the reason to wait. -/
theorem blk_track {cap n e a b} (hb' : (run cap n (a ++ e :: (b ++ [e.other]))).bad = none)
    (h : (run cap n (a ++ e :: b)).Blk e ↔ ¬ Moves cap n e.other (a ++ [e]) b) :
    (run cap n (a ++ e :: (b ++ [e.other]))).Blk e ↔ ¬ Moves cap n e.other (a ++ [e]) (b ++ [e.other]) := by
  have e1 : a ++ e :: (b ++ [e.other]) = (a ++ e :: b) ++ [e.other] := by simp
  rw [e1] at hb' ⊢
  have hb := run_none hb'
  rw [run_snoc] at hb' ⊢
  rw [oth_blk (run_inv cap n _) hb hb', h]
  unfold Moves
  rw [Does_snoc, show a ++ [e] ++ b = a ++ e :: b by simp]
  constructor
  · rintro ⟨h1, h2⟩ (h3 | ⟨-, h3⟩)
    · exact h1 h3
    · exact h2 h3
  · intro h1
    exact ⟨fun h2 => h1 (.inl h2), fun h2 => h1 (.inr ⟨rfl, h2⟩)⟩

theorem Moves_own {cap n e a b} :
    Moves cap n e.other a (b ++ [e]) ↔ Moves cap n e.other a b := by
  unfold Moves
  rw [Does_snoc]
  constructor
  · rintro (h | ⟨h, -⟩)
    · exact h
    · exact absurd h.symm (other_ne e)
  · exact .inl

theorem Track.step {cap n e h} (t : Track cap n e h) (x : Ev) (hb' : (run cap n (h ++ [x])).bad = none) :
    Track cap n e (h ++ [x]) := by
  have hb := run_none hb'
  have hI := run_inv cap n h
  have hs := run_snoc cap n h x
  rcases eq_or x e with rfl | rfl
  · -- its own turn
    cases hp : (run cap n h).ph x
    · by_cases hf : (run cap n h).Finds x
      · have h3 := own_idle hf
        rw [← hs] at h3
        refine ⟨fun _ => ⟨h, [], by simp, hf, by simp, by simp [h3.2.1, Does_nil]⟩, ?_, ?_, ?_⟩ <;>
          (intro h4; rw [h3.1] at h4; cases h4)
      · have h3 := own_idle' hb hp hf
        rw [← hs] at h3
        rcases h3.2 with h4 | ⟨h4, h5⟩
        · constructor <;> (intro h6; rw [h4] at h6; cases h6)
        · refine ⟨?_, ?_, ?_, fun _ h6 => absurd h6 h5⟩ <;> (intro h6; rw [h4] at h6; cases h6)
    · have h3 := own_late hI hb hp
      rw [← hs] at h3
      refine ⟨?_, fun _ => ?_, ?_, ?_⟩
      · intro h4; rw [h3.1] at h4; cases h4
      · obtain ⟨a, b, rfl, h4, h5, h6⟩ := t.late hp
        refine ⟨a, b, [], by simp, h4, h5, Does_nil, ?_, fun h => absurd h Does_nil⟩
        rw [h3.2.1, h6]
        exact ⟨fun h => ⟨h, Does_nil⟩, fun h => h.1⟩
      · intro h4; rw [h3.1] at h4; cases h4
      · intro h4; rw [h3.1] at h4; cases h4
    · have h3 := own_asleep hp
      rw [← hs] at h3
      rw [← h3] at hp
      refine ⟨?_, fun _ => ?_, ?_, ?_⟩
      · intro h4; rw [hp] at h4; cases h4
      · obtain ⟨a, b, c, hh, h4, h5, h6, h7, h8⟩ := t.asleep (by rw [← h3]; exact hp)
        refine ⟨a, b, c ++ [x], by simp [hh], h4, h5, ?_, ?_, ?_⟩
        · unfold Looks
          rw [Does_snoc]
          rintro (h | ⟨h, -⟩)
          · exact h6 h
          · exact other_ne x h.symm
        · rw [Moves_own, h3]; exact h7
        · rw [Moves_own, h3]; exact h8
      · intro h4; rw [hp] at h4; cases h4
      · intro h4; rw [hp] at h4; cases h4
    · have h3 := own_posted hb hp
      rw [← hs] at h3
      refine ⟨?_, ?_, ?_, fun _ _ => ?_⟩
      · intro h4; rw [h3.1] at h4; cases h4
      · intro h4; rw [h3.1] at h4; cases h4
      · intro h4; rw [h3.1] at h4; cases h4
      · obtain ⟨a, b, hh, h4, h5⟩ := t.posted hp
        exact ⟨a, b ++ [x], by simp [hh], h4, by rw [Moves_own, h3.2.1]; exact h5⟩
    · by_cases hk : (run cap n h).Blk x
      · have := own_go_blk hb hp hk
        rw [← hs, hb'] at this
        cases this
      · have h3 := own_go hb hp hk
        rw [← hs] at h3
        constructor <;> (intro h4; rw [h3.1] at h4; cases h4)
    · have h3 := own_after hb hp
      rw [← hs] at h3
      constructor <;> (intro h4; rw [h3.1] at h4; cases h4)
    · have h3 := own_done hp
      rw [← hs] at h3
      rw [← h3] at hp
      constructor <;> (intro h4; rw [hp] at h4; cases h4)
  · -- the turn of the other one
    have h3 := oth_ph (e := e) hI hb
    rw [← hs] at h3
    have hk := oth_blk (e := e) hI hb (by rw [← hs]; exact hb')
    rw [← hs] at hk
    refine ⟨fun h4 => ?_, fun h4 => ?_, fun h4 => ?_, fun h4 hk4 => ?_⟩
    · rw [h4] at h3
      have hp : (run cap n h).ph e = .late := by
        split at h3
        · cases h3
        · exact h3.symm
      obtain ⟨a, b, rfl, h5, h6, h7⟩ := t.late hp
      refine ⟨a, b ++ [e.other], by simp, h5, ?_, ?_⟩
      · intro x hx
        rcases List.mem_append.1 hx with hx | hx
        · exact h6 x hx
        · simpa using hx
      · have := blk_track (b := b) (by simpa using hb') h7
        simpa using this
    · rw [h4] at h3
      have hp : (run cap n h).ph e = .asleep ∧ (run cap n h).ph e.other ≠ .after := by
        split at h3
        · cases h3
        · next hc => exact ⟨h3.symm, fun h5 => hc ⟨h5, h3.symm⟩⟩
      obtain ⟨a, b, c, rfl, h5, h6, h7, h8, h9⟩ := t.asleep hp.1
      have hm : ¬ Moves cap n e.other (a ++ e :: (b ++ [e])) c := fun h => hp.2 (h9 h)
      have e1 : a ++ e :: (b ++ [e]) ++ c = a ++ e :: (b ++ e :: c) := by simp
      refine ⟨a, b, c ++ [e.other], by simp, h5, h6, ?_, ?_, ?_⟩
      · unfold Looks
        rw [Does_snoc, e1]
        rintro (h | ⟨-, h⟩)
        · exact h7 h
        · exact hp.2 h
      · rw [hk, h8]
        unfold Moves
        rw [Does_snoc (b := c), e1]
        constructor
        · rintro ⟨⟨h10, h11⟩, h12⟩
          refine ⟨h10, ?_⟩
          rintro (h | ⟨-, h⟩)
          · exact h11 h
          · exact h12 h
        · rintro ⟨h10, h11⟩
          exact ⟨⟨h10, fun h => h11 (.inl h)⟩, fun h => h11 (.inr ⟨rfl, h⟩)⟩
      · unfold Moves
        rw [Does_snoc, e1]
        rintro (h | ⟨-, h⟩)
        · exact absurd h hm
        · by_cases hkk : (run cap n (a ++ e :: (b ++ e :: c))).Blk e.other
          · have := own_go_blk hb h hkk
            rw [← hs, hb'] at this
            cases this
          · have := own_go hb h hkk
            rw [← hs] at this
            exact this.1
    · by_cases hc : (run cap n h).ph e.other = .after ∧ (run cap n h).ph e = .asleep
      · obtain ⟨a, b, c, rfl, h5, -, -, h8, -⟩ := t.asleep hc.2
        refine ⟨a, (b ++ e :: c) ++ [e.other], by simp, h5, ?_⟩
        have := blk_track (a := a) (e := e) (b := b ++ e :: c) (by simpa using hb')
          (by rw [h8, Moves_mid]; exact not_or.symm)
        simpa using this
      · rw [if_neg hc, h4] at h3
        obtain ⟨a, b, rfl, h5, h7⟩ := t.posted h3.symm
        refine ⟨a, b ++ [e.other], by simp, h5, ?_⟩
        have := blk_track (b := b) (by simpa using hb') h7
        simpa using this
    · rw [h4] at h3
      have hp : (run cap n h).ph e = .go := by
        split at h3
        · cases h3
        · exact h3.symm
      obtain ⟨a, b, rfl, h5, h7⟩ := t.go hp (hk.1 hk4).1
      refine ⟨a, b ++ [e.other], by simp, h5, ?_⟩
      have := blk_track (b := b) (by simpa using hb') h7
      simpa using this

theorem track {cap n h} (e : Ev) (hb : (run cap n h).bad = none) : Track cap n e h := by
  suffices ∀ l : List Ev, (run cap n l.reverse).bad = none → Track cap n e l.reverse by
    have := this h.reverse
    rw [List.reverse_reverse] at this
    exact this hb
  intro l
  induction l with
  | nil => intro _; exact Track.init cap n e
  | cons x l ih =>
    intro h
    rw [List.reverse_cons] at h ⊢
    exact (ih (run_none h)).step x h

/-! The other way: what follows from the moments. -/

/-- Without a move, the one who waits is on its way through one read or write, and has to wait. -/
theorem stay {cap n e a} (hf : (run cap n a).Finds e) :
    ∀ b : List Ev, (run cap n (a ++ e :: b)).bad = none → ¬ Moves cap n e.other (a ++ [e]) b →
      (run cap n (a ++ e :: b)).Blk e ∧ ((run cap n (a ++ e :: b)).ph e = .late ∨
        (run cap n (a ++ e :: b)).ph e = .asleep ∨ (run cap n (a ++ e :: b)).ph e = .posted ∨
        (run cap n (a ++ e :: b)).ph e = .go) := by
  suffices ∀ l : List Ev, (run cap n (a ++ e :: l.reverse)).bad = none →
      ¬ Moves cap n e.other (a ++ [e]) l.reverse →
      (run cap n (a ++ e :: l.reverse)).Blk e ∧ ((run cap n (a ++ e :: l.reverse)).ph e = .late ∨
        (run cap n (a ++ e :: l.reverse)).ph e = .asleep ∨ (run cap n (a ++ e :: l.reverse)).ph e = .posted ∨
        (run cap n (a ++ e :: l.reverse)).ph e = .go) by
    intro b
    have := this b.reverse
    rwa [List.reverse_reverse] at this
  intro l
  induction l with
  | nil =>
    intro _ _
    have h3 := own_idle hf
    rw [← run_snoc] at h3
    exact ⟨h3.2.1, .inl h3.1⟩
  | cons x l ih =>
    intro hb hm
    rw [List.reverse_cons] at hb hm ⊢
    have e1 : a ++ e :: (l.reverse ++ [x]) = (a ++ e :: l.reverse) ++ [x] := by simp
    rw [e1] at hb ⊢
    have hb0 := run_none hb
    have hI := run_inv cap n (a ++ e :: l.reverse)
    have hm0 : ¬ Moves cap n e.other (a ++ [e]) l.reverse := by
      intro h
      apply hm
      unfold Moves
      rw [Does_snoc]
      exact .inl h
    have hs := run_snoc cap n (a ++ e :: l.reverse) x
    obtain ⟨h1, h2⟩ := ih hb0 hm0
    rcases eq_or x e with rfl | rfl
    · rcases h2 with h2 | h2 | h2 | h2
      · have h3 := own_late hI hb0 h2
        rw [← hs] at h3
        exact ⟨h3.2.1.2 h1, .inr (.inl h3.1)⟩
      · have h3 := own_asleep h2
        rw [← hs] at h3
        rw [h3]
        exact ⟨h1, .inr (.inl h2)⟩
      · have h3 := own_posted hb0 h2
        rw [← hs] at h3
        exact ⟨h3.2.1.2 h1, .inr (.inr (.inr h3.1))⟩
      · have h3 := own_go_blk hb0 h2 h1
        rw [← hs, hb] at h3
        cases h3
    · have h3 := oth_ph (e := e) hI hb0
      rw [← hs] at h3
      have hk := oth_blk (e := e) hI hb0 (by rw [← hs]; exact hb)
      rw [← hs] at hk
      refine ⟨hk.2 ⟨h1, ?_⟩, ?_⟩
      · intro h4
        apply hm
        unfold Moves
        rw [Does_snoc, show a ++ [e] ++ l.reverse = a ++ e :: l.reverse by simp]
        exact .inr ⟨rfl, h4⟩
      · rw [h3]
        split
        · exact .inr (.inr (.inl rfl))
        · exact h2

/-- Between the test and the store. -/
theorem stay_late {cap n e a} (hf : (run cap n a).Finds e) :
    ∀ b : List Ev, (run cap n (a ++ e :: b)).bad = none → (∀ x ∈ b, x = e.other) →
      (run cap n (a ++ e :: b)).ph e = .late ∧
      (Moves cap n e.other (a ++ [e]) b → ¬ (run cap n (a ++ e :: b)).Blk e) := by
  suffices ∀ l : List Ev, (run cap n (a ++ e :: l.reverse)).bad = none → (∀ x ∈ l.reverse, x = e.other) →
      (run cap n (a ++ e :: l.reverse)).ph e = .late ∧
      (Moves cap n e.other (a ++ [e]) l.reverse → ¬ (run cap n (a ++ e :: l.reverse)).Blk e) by
    intro b
    have := this b.reverse
    rwa [List.reverse_reverse] at this
  intro l
  induction l with
  | nil =>
    intro _ _
    have h3 := own_idle hf
    rw [← run_snoc] at h3
    exact ⟨h3.1, fun h => absurd h Does_nil⟩
  | cons x l ih =>
    intro hb hx
    rw [List.reverse_cons] at hb hx ⊢
    have hxe : x = e.other := hx x (by simp)
    subst hxe
    have e1 : a ++ e :: (l.reverse ++ [e.other]) = (a ++ e :: l.reverse) ++ [e.other] := by simp
    rw [e1] at hb ⊢
    have hb0 := run_none hb
    have hI := run_inv cap n (a ++ e :: l.reverse)
    have hs := run_snoc cap n (a ++ e :: l.reverse) e.other
    obtain ⟨h1, h2⟩ := ih hb0 (fun y hy => hx y (List.mem_append_left _ hy))
    have h3 := oth_ph (e := e) hI hb0
    rw [← hs, h1] at h3
    have hk := oth_blk (e := e) hI hb0 (by rw [← hs]; exact hb)
    rw [← hs] at hk
    refine ⟨by rw [h3]; simp, fun hm hk' => ?_⟩
    have := hk.1 hk'
    unfold Moves at hm
    rw [Does_snoc, show a ++ [e] ++ l.reverse = a ++ e :: l.reverse by simp] at hm
    rcases hm with hm | ⟨-, hm⟩
    · exact h2 hm this.1
    · exact this.2 hm

/-- Asleep, while the other one does not look. -/
theorem stay_asleep {cap n e a} (ha : (run cap n a).ph e = .asleep) (hk : ¬ (run cap n a).Blk e) :
    ∀ c : List Ev, (run cap n (a ++ c)).bad = none → ¬ Looks cap n e.other a c →
      (run cap n (a ++ c)).ph e = .asleep ∧ ¬ (run cap n (a ++ c)).Blk e := by
  suffices ∀ l : List Ev, (run cap n (a ++ l.reverse)).bad = none → ¬ Looks cap n e.other a l.reverse →
      (run cap n (a ++ l.reverse)).ph e = .asleep ∧ ¬ (run cap n (a ++ l.reverse)).Blk e by
    intro b
    have := this b.reverse
    rwa [List.reverse_reverse] at this
  intro l
  induction l with
  | nil => intro _ _; simpa using ⟨ha, hk⟩
  | cons x l ih =>
    intro hb hl
    rw [List.reverse_cons] at hb hl ⊢
    rw [← List.append_assoc] at hb ⊢
    have hb0 := run_none hb
    have hI := run_inv cap n (a ++ l.reverse)
    have hs := run_snoc cap n (a ++ l.reverse) x
    unfold Looks at hl
    rw [Does_snoc] at hl
    obtain ⟨h1, h2⟩ := ih hb0 (fun h => hl (.inl h))
    rcases eq_or x e with rfl | rfl
    · have h3 := own_asleep h1
      rw [← hs] at h3
      rw [h3]
      exact ⟨h1, h2⟩
    · have h3 := oth_ph (e := e) hI hb0
      rw [← hs] at h3
      have hk := oth_blk (e := e) hI hb0 (by rw [← hs]; exact hb)
      rw [← hs] at hk
      refine ⟨?_, fun h => h2 (hk.1 h).1⟩
      rw [h3, if_neg, h1]
      rintro ⟨h4, -⟩
      exact hl (.inr ⟨rfl, h4⟩)

end Cobalt.Lfq
