import Verif.Lfq.Bad
/-
C103: a queue between two threads made awaitable as in example/spsc.cpp.
-/
namespace Cobalt.Lfq

/-- The assertions of the example never fail: each side waits at most once. -/
theorem C103_assert (cap n : Nat) (h : List Ev) : (run cap n h).bad ≠ some .assert :=
  (run_inv cap n h).ok

example : (run 2 5 [.r, .r, .w, .w, .w, .r, .r, .r]).bad ≠ some .assert := C103_assert _ _ _

/-- As long as nothing fails, everything is read once and in order. -/
theorem C103_order (cap n : Nat) (h : List Ev) : Fine (run cap n h) ↔ (run cap n h).bad = none :=
  ⟨fun hf => hf.1, fun hb => ⟨hb, (run_inv cap n h).flow hb⟩⟩

example : Fine (run 2 5 [.r, .r, .w, .w, .w, .r, .r, .r]) := by
  rw [C103_order]; decide

/-- **When a read or write fails**: exactly if it was woken by somebody who had not moved a value since it went
to wait. -/
theorem C103_stale (cap n : Nat) (h : List Ev) (e : Ev) :
    (run cap n h).bad = some e.fault ↔ Stale cap n e h := by
  constructor
  · suffices ∀ l : List Ev, (run cap n l.reverse).bad = some e.fault → Stale cap n e l.reverse by
      have := this h.reverse
      rwa [List.reverse_reverse] at this
    intro l
    induction l with
    | nil => intro hb; cases hb
    | cons x l ih =>
      intro hb
      rw [List.reverse_cons] at hb ⊢
      cases hb0 : (run cap n l.reverse).bad with
      | some y =>
        have := run_bad_keep (b := [x]) hb0
        rw [hb] at this
        rw [← this] at hb0
        obtain ⟨a, b, c, h1, h2⟩ := ih hb0
        exact ⟨a, b, c ++ [x], by rw [h1]; simp, h2⟩
      | none =>
        have hI := run_inv cap n l.reverse
        rw [run_snoc] at hb
        obtain ⟨rfl, h2, h3⟩ := bad_step hI hb0 hb
        obtain ⟨a, b, h4, h5, h6⟩ := (track x hb0).go h2 h3
        rw [h4] at h2 h3 h6 hb0 ⊢
        exact ⟨a, b, [], by simp, h5, h6.1 h3, hb0, h2⟩
  · rintro ⟨a, b, c, rfl, h1, h2, h3, h4⟩
    have h5 := stay h1 b h3 h2
    rw [show a ++ e :: (b ++ e :: c) = (a ++ e :: b) ++ [e] ++ c by simp]
    apply run_bad_keep
    rw [run_snoc]
    exact own_go_blk h3 h4 h5.1

example : Stale 1024 3 .r [.w, .w, .r, .r, .r, .r, .r, .w, .r, .r] := by
  rw [← C103_stale]; decide

/-- A schedule is all right exactly if nobody is woken for nothing. -/
theorem C103_fine (cap n : Nat) (h : List Ev) :
    Fine (run cap n h) ↔ ¬ Stale cap n .r h ∧ ¬ Stale cap n .w h := by
  rw [C103_order, ← C103_stale, ← C103_stale]
  constructor
  · intro h1
    rw [h1]
    exact ⟨by simp, by simp⟩
  · rintro ⟨h1, h2⟩
    cases hb : (run cap n h).bad with
    | none => rfl
    | some y =>
      cases y
      · exact absurd hb (C103_assert cap n h)
      · exact absurd hb h1
      · exact absurd hb h2

/-- **Who sleeps for nothing**: exactly who has missed its wake-up. -/
theorem C103_missed (cap n : Nat) (h : List Ev) (e : Ev) (hb : (run cap n h).bad = none)
    (hl : (run cap n h).ph e.other ≠ .after) :
    (run cap n h).ph e = .asleep ∧ ¬ (run cap n h).Blk e ↔ Missed cap n e h := by
  constructor
  · rintro ⟨h1, h2⟩
    obtain ⟨a, b, c, h3, h4, h5, h6, h7, h8⟩ := (track e hb).asleep h1
    refine ⟨a, b, c, h3, h4, h5, ?_, h6⟩
    apply Classical.byContradiction
    intro h9
    exact h2 (h7.2 ⟨h9, fun h10 => hl (h8 h10)⟩)
  · rintro ⟨a, b, c, rfl, h1, h2, h3, h4⟩
    have e1 : a ++ e :: (b ++ e :: c) = (a ++ e :: (b ++ [e])) ++ c := by simp
    have e2 : a ++ e :: (b ++ [e]) = (a ++ e :: b) ++ [e] := by simp
    rw [e1] at hb ⊢
    have hb2 := run_none hb
    rw [e2] at hb2
    have hb3 := run_none hb2
    have h5 := stay_late h1 b hb3 h2
    have h6 := own_late (run_inv cap n _) hb3 h5.1
    rw [← run_snoc, ← e2] at h6
    exact stay_asleep h6.1 (fun h7 => h5.2 h3 (h6.2.1.1 h7)) c hb h4

example : Missed 1024 1 .r [.r, .w, .w, .w, .r] :=
  (C103_missed 1024 1 _ .r (by decide) (by decide)).1
    ⟨by decide, by show ¬ (run 1024 1 [.r, .w, .w, .w, .r]).q = []; decide⟩

/-- **When both stand still for good**: exactly if one of them has missed its wake-up. -/
theorem C103_dead {cap : Nat} (hc : 1 ≤ cap) (n : Nat) (h : List Ev) :
    Dead (run cap n h) ↔ (run cap n h).bad = none ∧ (∀ e, (run cap n h).step e = run cap n h) ∧
      (Missed cap n .r h ∨ Missed cap n .w h) := by
  have hI := run_inv cap n h
  have hcap := run_cap cap n h
  have hna : (run cap n h).bad = none → (∀ e, (run cap n h).step e = run cap n h) →
      ∀ e, (run cap n h).ph e ≠ .after := by
    intro hb hq e h1
    rcases quiet_ph hI hb (hq e) with h2 | h2 <;> (rw [h1] at h2; cases h2)
  constructor
  · rintro ⟨hb, hq, hd⟩
    refine ⟨hb, hq, ?_⟩
    rw [← C103_missed cap n h .r hb (hna hb hq _), ← C103_missed cap n h .w hb (hna hb hq _)]
    have hle := hI.le hb
    have hsn := hI.sent
    have hr := quiet_ph hI hb (hq .r)
    have hw := quiet_ph hI hb (hq .w)
    simp only [St.ph, St.Blk] at hr hw ⊢
    rw [hcap.1]
    rcases hr with hr | hr
    · by_cases hk : (run cap n h).q = []
      · right
        rcases hw with hw | hw
        · exact ⟨hw, by rw [hk]; simp; omega⟩
        · have h1 := hI.wdone hw
          have h2 := hI.rd (by simp [hr])
          rw [hk, List.length_nil] at hle
          omega
      · exact .inl ⟨hr, hk⟩
    · rcases hw with hw | hw
      · have h1 := hI.rdone hr
        have h2 := hI.wr (by simp [hw])
        omega
      · exact absurd ⟨hr, hw⟩ hd
  · rintro ⟨hb, hq, hm⟩
    refine ⟨hb, hq, ?_⟩
    rw [← C103_missed cap n h .r hb (hna hb hq _), ← C103_missed cap n h .w hb (hna hb hq _)] at hm
    simp only [St.ph] at hm
    rintro ⟨h1, h2⟩
    rcases hm with ⟨h3, -⟩ | ⟨h3, -⟩
    · rw [h1] at h3; cases h3
    · rw [h2] at h3; cases h3

example : Dead (run 1 2 [.r, .w, .w, .w, .w, .w, .r]) :=
  ⟨by decide, by intro e; cases e <;> decide, by decide⟩

/-- **Exactly**: a schedule is right if and only if nobody is woken for nothing, and, once nobody can go on,
nobody has missed a wake-up. -/
theorem C103_exact {cap : Nat} (hc : 1 ≤ cap) (n : Nat) (h : List Ev) :
    (Fine (run cap n h) ∧ ¬ Dead (run cap n h)) ↔
      (∀ e, ¬ Stale cap n e h) ∧ ((∀ e, (run cap n h).step e = run cap n h) → ∀ e, ¬ Missed cap n e h) := by
  rw [C103_dead hc, C103_fine]
  constructor
  · rintro ⟨⟨h1, h2⟩, h3⟩
    have hb := (C103_order cap n h).1 ((C103_fine cap n h).2 ⟨h1, h2⟩)
    refine ⟨fun e => by cases e <;> assumption, fun hq e hm => h3 ⟨hb, hq, ?_⟩⟩
    cases e
    · exact .inl hm
    · exact .inr hm
  · rintro ⟨h1, h2⟩
    refine ⟨⟨h1 .r, h1 .w⟩, ?_⟩
    rintro ⟨-, hq, hm | hm⟩
    · exact h2 hq _ hm
    · exact h2 hq _ hm

example : Fine (run 1 1 [.w, .w, .w, .r, .r]) ∧ ¬ Dead (run 1 1 [.w, .w, .w, .r, .r]) := by
  refine ⟨⟨by decide, by decide⟩, ?_⟩
  rintro ⟨-, h, -⟩
  exact absurd (h .r) (by decide)

/-- **For which sizes**: every schedule is right exactly if there is nothing to write. -/
theorem C103_sizes (cap n : Nat) :
    (∀ h, Fine (run cap n h) ∧ ¬ Dead (run cap n h)) ↔ n = 0 := by
  constructor
  · intro h
    apply Classical.byContradiction
    intro hn
    exact (h (deadline cap n)).2 (deadline_dead (by omega))
  · rintro rfl h
    have hb := (noStale (cap := cap) (n := 0) (.inl (by omega)) h).1
    have hI := run_inv cap 0 h
    have hcap := run_cap cap 0 h
    refine ⟨(C103_order cap 0 h).2 hb, ?_⟩
    rintro ⟨-, hq, hd⟩
    apply hd
    constructor
    · rcases quiet_ph hI hb (hq .r) with h1 | h1
      · have := hI.rd (.inr (.inl h1))
        omega
      · exact h1
    · rcases quiet_ph hI hb (hq .w) with h1 | h1
      · have := hI.wr (.inr (.inl h1))
        omega
      · exact h1

/-- **For which sizes no value is made up or dropped**: if at most one is written, or there is no space. -/
theorem C103_sizes_fine (cap n : Nat) : (∀ h, Fine (run cap n h)) ↔ n ≤ 1 ∨ cap = 0 := by
  constructor
  · intro h
    apply Classical.byContradiction
    intro hn
    have h1 := (h staleline).1
    obtain ⟨c, rfl⟩ : ∃ c, cap = c + 1 := ⟨cap - 1, by omega⟩
    obtain ⟨m, rfl⟩ : ∃ m, n = m + 2 := ⟨n - 2, by omega⟩
    rw [staleline_bad] at h1
    cases h1
  · intro hc h
    exact (C103_order cap n h).2 (noStale hc h).1

/-- The example itself (1024 places, 100000002 values) can read a value that is not there, and can stand
still. -/
theorem C103_violated :
    (∃ h, (run 1024 100000002 h).bad = some .empty) ∧ (∃ h, Dead (run 1024 100000002 h)) :=
  ⟨⟨_, staleline_bad 1023 100000000⟩, ⟨_, deadline_dead (by omega)⟩⟩

/-- **What is right**: if nobody gets between the test and the store, nor between the move and the look, of the
other one, nothing fails and nobody stands still. -/
theorem C103_partial {cap : Nat} (hc : 1 ≤ cap) (n : Nat) (h : List Ev) (hcalm : Calm cap n h) :
    Fine (run cap n h) ∧ ¬ Dead (run cap n h) := by
  obtain ⟨hb, hi⟩ := hcalm.inv
  have hI := run_inv cap n h
  have hcap := run_cap cap n h
  refine ⟨(C103_order cap n h).2 hb, ?_⟩
  rintro ⟨-, hq, hd⟩
  have hle := hI.le hb
  have hsn := hI.sent
  have hna : ∀ e, (run cap n h).ph e ≠ .after := by
    intro e h1
    rcases quiet_ph hI hb (hq e) with h2 | h2 <;> (rw [h1] at h2; cases h2)
  have hr := quiet_ph hI hb (hq .r)
  have hw := quiet_ph hI hb (hq .w)
  rcases hr with hr | hr
  · have hk : (run cap n h).q = [] := ((hi .r).asleep hr).2 (hna _)
    have h2 := hI.rd (.inr (.inl hr))
    rw [hk, List.length_nil] at hle
    rcases hw with hw | hw
    · have hk2 : (run cap n h).cap ≤ (run cap n h).q.length := ((hi .w).asleep hw).2 (hna _)
      rw [hk, List.length_nil, hcap.1] at hk2
      omega
    · have h1 := hI.wdone hw
      omega
  · have h1 := hI.rdone hr
    rcases hw with hw | hw
    · have h2 := hI.wr (.inr (.inl hw))
      omega
    · exact hd ⟨hr, hw⟩

/-- A calm schedule after which nobody can go on has read everything, in order. -/
theorem C103_all_partial {cap : Nat} (hc : 1 ≤ cap) (n : Nat) (h : List Ev) (hcalm : Calm cap n h)
    (hq : ∀ e, (run cap n h).step e = run cap n h) : (run cap n h).out = List.range n := by
  obtain ⟨⟨hb, hf⟩, hd⟩ := C103_partial hc n h hcalm
  have hI := run_inv cap n h
  have hcap := run_cap cap n h
  have hdone : (run cap n h).rd = .done ∧ (run cap n h).wr = .done := by
    apply Classical.byContradiction
    intro h1
    exact hd ⟨hb, hq, h1⟩
  have h1 := hI.rdone hdone.1
  have h2 := hI.wdone hdone.2
  have hle := hI.le hb
  have hk : (run cap n h).q = [] := List.eq_nil_of_length_eq_zero (by omega)
  rw [hk, List.append_nil, h2, hcap.2] at hf
  exact hf

/-- A boolean test for `Calm`. -/
def calmB (s : St) : List Ev → Bool
  | [] => true
  | e :: l => (s.ph e.other != .late && s.ph e.other != .after) && calmB (s.step e) l

theorem calm_of {cap n : Nat} {h : List Ev} (hc : calmB (St.init cap n) h = true) : Calm cap n h := by
  suffices ∀ (l : List Ev) (s : St), calmB s l = true → ∀ a b e, l = a ++ e :: b →
      (a.foldl St.step s).ph e.other ≠ .late ∧ (a.foldl St.step s).ph e.other ≠ .after from
    fun a b e hh => this h _ hc a b e hh
  intro l
  induction l with
  | nil => intro s _ a b e hh; cases a <;> cases hh
  | cons x l ih =>
    intro s hs a b e hh
    simp only [calmB, Bool.and_eq_true, bne_iff_ne] at hs
    cases a with
    | nil =>
      cases hh
      exact hs.1
    | cons y a =>
      cases hh
      exact ih _ hs.2 a b e rfl

/-- Three values through one place: the writer waits, the reader waits, all arrive. -/
abbrev calmRun : List Ev :=
  [.r, .r, .w, .w, .w, .r, .r, .r, .w, .w, .w, .w, .w, .r, .r, .r, .r, .r, .w, .w, .w, .w, .r, .r, .r, .r]

example : (run 1 3 calmRun).out = [0, 1, 2] :=
  C103_all_partial (by decide) 3 calmRun (calm_of (by decide)) (by intro e; cases e <;> decide)

/-- It comes to an end: a schedule without wasted turns is no longer than this. -/
theorem C103_ends (cap n : Nat) (h : List Ev) (hb : Busy cap n h) : h.length ≤ 16 * n + 13 := by
  have := busy_mu hb
  omega

example : Busy 1 1 [.w, .w, .w, .r, .r, .r] := by
  intro a e b hh
  match a with
  | [] => cases hh; decide
  | [_] => cases hh; decide
  | [_, _] => cases hh; decide
  | [_, _, _] => cases hh; decide
  | [_, _, _, _] => cases hh; decide
  | [_, _, _, _, _] => cases hh; decide
  | _ :: _ :: _ :: _ :: _ :: _ :: a => cases a <;> cases hh

end Cobalt.Lfq
