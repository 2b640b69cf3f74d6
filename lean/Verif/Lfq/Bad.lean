import Verif.Lfq.Track
/-
Schedules that go wrong for every capacity, those that cannot, and how long a schedule can be.
-/
namespace Cobalt.Lfq

/-- Who cannot go on is asleep or has ended. -/
theorem quiet_ph {s : St} {e : Ev} (hI : Inv s) (hb : s.bad = none) (h : s.step e = s) :
    s.ph e = .asleep ∨ s.ph e = .done := by
  cases hp : s.ph e
  · by_cases hf : s.Finds e
    · have := (own_idle hf).1
      rw [h, hp] at this; cases this
    · rcases (own_idle' hb hp hf).2 with h1 | ⟨h1, -⟩ <;> (rw [h, hp] at h1; cases h1)
  · have := (own_late hI hb hp).1
    rw [h, hp] at this; cases this
  · exact .inl rfl
  · have := (own_posted hb hp).1
    rw [h, hp] at this; cases this
  · by_cases hk : s.Blk e
    · have := own_go_blk hb hp hk
      rw [h, hb] at this; cases this
    · have := (own_go hb hp hk).1
      rw [h, hp] at this; cases this
  · have := (own_after hb hp).1
    rw [h, hp] at this; cases this
  · exact .inr rfl

/-! ### Schedules that go wrong -/

/-- The reader has looked, the writer has written `k` values, the reader has not yet stored its handle. -/
def mid (cap n k : Nat) : St :=
  { cap, n, q := List.range k, rd := .late, sent := k }

theorem mid_step {cap n k : Nat} (h1 : k < cap) (h2 : k < n) :
    [Ev.w, Ev.w, Ev.w].foldl St.step (mid cap n k) = mid cap n (k + 1) := by
  have : k ≠ n := by omega
  simp [mid, St.step, St.write, h1, this, List.range_succ]

theorem mid_run {cap n : Nat} (hn : 1 ≤ n) : ∀ k, k ≤ cap → k ≤ n →
    run cap n (.r :: (List.replicate k [Ev.w, Ev.w, Ev.w]).flatten) = mid cap n k
  | 0, _, _ => by
    have : ¬ n = 0 := by omega
    have h0 : ¬ 0 = n := by omega
    simp [run, St.init, St.step, St.read, mid, h0]
  | k + 1, h1, h2 => by
    have ih := mid_run (cap := cap) hn k (by omega) (by omega)
    rw [List.replicate_succ', List.flatten_append, ← List.cons_append, run_app, ih,
      List.flatten_cons, List.flatten_nil, List.append_nil, mid_step (k := k) (by omega) (by omega)]

/-- The reader looks, the writer writes all it can, the reader goes to sleep. -/
def deadline (cap n : Nat) : List Ev :=
  .r :: (List.replicate (min cap n) [Ev.w, Ev.w, Ev.w]).flatten ++ [.w, .w, .r]

theorem deadline_dead {cap n : Nat} (hn : 1 ≤ n) : Dead (run cap n (deadline cap n)) := by
  rw [deadline, run_app, mid_run hn _ (Nat.min_le_left _ _) (Nat.min_le_right _ _)]
  by_cases h : n ≤ cap
  · rw [Nat.min_eq_right h]
    refine ⟨by simp [mid, St.step, St.write, St.read], ?_, by simp [mid, St.step, St.write, St.read]⟩
    intro e; cases e <;> simp [mid, St.step, St.write, St.read]
  · rw [Nat.min_eq_left (by omega)]
    have : ¬ cap = n := by omega
    refine ⟨by simp [mid, St.step, St.write, St.read, this], ?_, by simp [mid, St.step, St.write, St.read, this]⟩
    intro e; cases e <;> simp [mid, St.step, St.write, St.read, this]

/-- The reader reads a value before the writer has looked for somebody to wake, and goes to sleep. -/
def staleline : List Ev := [.w, .w, .r, .r, .r, .r, .r, .w, .r, .r]

theorem staleline_bad (cap n : Nat) : (run (cap + 1) (n + 2) staleline).bad = some .empty := by
  simp [staleline, run, St.init, St.step, St.read, St.write]

/-! ### Nothing is stale with one value -/

theorem noStale {cap n : Nat} (hc : n ≤ 1 ∨ cap = 0) (h : List Ev) :
    (run cap n h).bad = none ∧
      ∀ e, (run cap n h).ph e = .posted ∨ (run cap n h).ph e = .go → ¬ (run cap n h).Blk e := by
  suffices ∀ l : List Ev, (run cap n l.reverse).bad = none ∧
      ∀ e, (run cap n l.reverse).ph e = .posted ∨ (run cap n l.reverse).ph e = .go →
        ¬ (run cap n l.reverse).Blk e by
    have := this h.reverse
    rwa [List.reverse_reverse] at this
  intro l
  induction l with
  | nil =>
    refine ⟨rfl, fun e => ?_⟩
    cases e <;> simp [run, St.init, St.ph]
  | cons x l ih =>
    rw [List.reverse_cons]
    obtain ⟨hb, hk⟩ := ih
    have hI := run_inv cap n l.reverse
    have hcap := run_cap cap n l.reverse
    have hs := run_snoc cap n l.reverse x
    have hb' : (run cap n (l.reverse ++ [x])).bad = none := by
      apply Classical.byContradiction
      intro hx
      have hI' := run_inv cap n (l.reverse ++ [x])
      have hex : ∃ e : Ev, (run cap n (l.reverse ++ [x])).bad = some e.fault := by
        cases hy : (run cap n (l.reverse ++ [x])).bad with
        | none => exact absurd hy hx
        | some y =>
          cases y
          · exact absurd hy hI'.ok
          · exact ⟨.r, rfl⟩
          · exact ⟨.w, rfl⟩
      obtain ⟨e, he⟩ := hex
      rw [hs] at he
      obtain ⟨-, h2, h3⟩ := bad_step hI hb he
      exact hk e (.inr h2) h3
    refine ⟨hb', fun e he => ?_⟩
    rcases eq_or x e with rfl | rfl
    · cases hp : (run cap n l.reverse).ph x
      · by_cases hf : (run cap n l.reverse).Finds x
        · have h3 := own_idle hf
          rw [← hs] at h3
          rw [h3.1] at he
          rcases he with he | he <;> cases he
        · have h3 := (own_idle' hb hp hf).2
          rw [← hs] at h3
          rcases h3 with h3 | h3
          · rw [h3] at he
            rcases he with he | he <;> cases he
          · exact h3.2
      · have h3 := own_late hI hb hp
        rw [← hs] at h3
        rw [h3.1] at he
        rcases he with he | he <;> cases he
      · have h3 := own_asleep hp
        rw [← hs] at h3
        rw [h3, hp] at he
        rcases he with he | he <;> cases he
      · have h3 := own_posted hb hp
        rw [← hs] at h3
        rw [h3.2.1]
        exact hk x (.inl hp)
      · have h3 := own_go hb hp (hk x (.inr hp))
        rw [← hs] at h3
        rw [h3.1] at he
        rcases he with he | he <;> cases he
      · have h3 := own_after hb hp
        rw [← hs] at h3
        rw [h3.1] at he
        rcases he with he | he <;> cases he
      · have h3 := own_done hp
        rw [← hs] at h3
        rw [h3, hp] at he
        rcases he with he | he <;> cases he
    · have h3 := oth_ph (e := e) hI hb
      rw [← hs] at h3
      have h4 := oth_blk (e := e) hI hb (by rw [← hs]; exact hb')
      rw [← hs] at h4
      rw [h4]
      by_cases hc2 : (run cap n l.reverse).ph e.other = .after ∧ (run cap n l.reverse).ph e = .asleep
      · have hle := hI.le hb
        have hsn := hI.sent
        have hrm := hI.room
        rw [hcap.1] at hrm
        rw [hcap.2] at hsn
        cases e
        · have h5 := hI.wafter hc2.1
          have h6 := hI.rd (.inr (.inl hc2.2))
          rw [hcap.2] at h6
          rintro ⟨h7, -⟩
          simp only [St.Blk] at h7
          rw [h7] at hle
          simp only [List.length_nil] at hle
          have := hrm h5
          omega
        · have h5 := hI.rafter hc2.1
          have h6 := hI.wr (.inr (.inl hc2.2))
          rw [hcap.2] at h6
          have := hrm (by omega)
          omega
      · rw [if_neg hc2] at h3
        rw [h3] at he
        exact fun h5 => hk e he h5.1

/-! ### Calm schedules -/

structure CalmInv (s : St) (e : Ev) : Prop where
  late : s.ph e = .late → s.Blk e
  asleep : s.ph e = .asleep → (s.Blk e ↔ s.ph e.other ≠ .after)
  awake : s.ph e = .posted ∨ s.ph e = .go → ¬ s.Blk e

theorem CalmInv.step {s : St} {x : Ev} (hI : Inv s) (hb : s.bad = none) (hc : ∀ e, CalmInv s e)
    (h1 : s.ph x.other ≠ .late) (h2 : s.ph x.other ≠ .after) :
    (s.step x).bad = none ∧ ∀ e, CalmInv (s.step x) e := by
  have hb' : (s.step x).bad = none := by
    apply Classical.byContradiction
    intro hx
    have hI' := hI.step x
    have hex : ∃ e : Ev, (s.step x).bad = some e.fault := by
      cases hy : (s.step x).bad with
      | none => exact absurd hy hx
      | some y =>
        cases y
        · exact absurd hy hI'.ok
        · exact ⟨.r, rfl⟩
        · exact ⟨.w, rfl⟩
    obtain ⟨e, he⟩ := hex
    obtain ⟨-, h2, h3⟩ := bad_step hI hb he
    exact (hc e).awake (.inr h2) h3
  refine ⟨hb', fun e => ?_⟩
  rcases eq_or x e with rfl | rfl
  · -- its own turn: the other one is neither late nor in front of its look
    have ho : (s.step x).ph x.other ≠ .after := by
      have h3 := oth_ph (s := s) (e := x.other) hI hb
      rw [other_other] at h3
      rw [h3]
      split
      · simp
      · exact h2
    cases hp : s.ph x
    · by_cases hf : s.Finds x
      · have h3 := own_idle hf
        refine ⟨fun _ => h3.2.1, ?_, ?_⟩ <;> (intro h4; rw [h3.1] at h4; simp at h4)
      · rcases (own_idle' hb hp hf).2 with h3 | h3
        · constructor <;> (intro h4; rw [h3] at h4; simp at h4)
        · refine ⟨?_, ?_, fun _ => h3.2⟩ <;> (intro h4; rw [h3.1] at h4; simp at h4)
    · have h3 := own_late hI hb hp
      refine ⟨?_, fun _ => ?_, ?_⟩
      · intro h4; rw [h3.1] at h4; simp at h4
      · rw [h3.2.1]
        exact ⟨fun _ => ho, fun _ => (hc x).late hp⟩
      · intro h4; rw [h3.1] at h4; simp at h4
    · rw [own_asleep hp]; exact hc x
    · have h3 := own_posted hb hp
      refine ⟨?_, ?_, fun _ => by rw [h3.2.1]; exact (hc x).awake (.inl hp)⟩ <;>
        (intro h4; rw [h3.1] at h4; simp at h4)
    · have h3 := own_go hb hp ((hc x).awake (.inr hp))
      constructor <;> (intro h4; rw [h3.1] at h4; simp at h4)
    · have h3 := own_after hb hp
      constructor <;> (intro h4; rw [h3.1] at h4; simp at h4)
    · rw [own_done hp]; exact hc x
  · rw [other_other] at h1 h2
    have h3 := oth_ph (e := e) hI hb
    have h4 := oth_blk (e := e) hI hb hb'
    refine ⟨fun h5 => ?_, fun h5 => ?_, fun h5 => ?_⟩
    · rw [h5] at h3
      split at h3
      · cases h3
      · exact absurd h3.symm h1
    · rw [h5] at h3
      split at h3
      · cases h3
      · next hcc =>
        have hna : s.ph e.other ≠ .after := fun h6 => hcc ⟨h6, h3.symm⟩
        have hk := ((hc e).asleep h3.symm).2 hna
        rw [h4]
        constructor
        · rintro ⟨-, h6⟩ h7
          -- the other one gets in front of its look only by a move
          cases hp : s.ph e.other
          · by_cases hf : s.Finds e.other
            · rw [(own_idle hf).1] at h7; cases h7
            · rcases (own_idle' hb hp hf).2 with h8 | ⟨h8, -⟩ <;> (rw [h8] at h7; cases h7)
          · rw [(own_late hI hb hp).1] at h7; cases h7
          · rw [own_asleep hp, hp] at h7; cases h7
          · rw [(own_posted hb hp).1] at h7; cases h7
          · exact h6 hp
          · exact hna hp
          · rw [own_done hp, hp] at h7; cases h7
        · intro h6
          refine ⟨hk, fun h7 => h6 ?_⟩
          exact (own_go hb h7 ((hc e.other).awake (.inr h7))).1
    · rw [h4]
      split at h3
      · next hcc => exact fun h6 => ((hc e).asleep hcc.2).1 h6.1 hcc.1
      · rw [h3] at h5
        exact fun h6 => (hc e).awake h5 h6.1

theorem Calm.inv {cap n h} (hc : Calm cap n h) :
    (run cap n h).bad = none ∧ ∀ e, CalmInv (run cap n h) e := by
  suffices ∀ l : List Ev, Calm cap n l.reverse →
      (run cap n l.reverse).bad = none ∧ ∀ e, CalmInv (run cap n l.reverse) e by
    have := this h.reverse
    rw [List.reverse_reverse] at this
    exact this hc
  intro l
  induction l with
  | nil =>
    intro _
    refine ⟨rfl, fun e => ?_⟩
    constructor <;> cases e <;> simp [run, St.init, St.ph]
  | cons x l ih =>
    intro hc
    rw [List.reverse_cons] at hc ⊢
    obtain ⟨h1, h2⟩ := hc l.reverse [] x rfl
    obtain ⟨hb, hi⟩ := ih (fun a b e hh => hc a (b ++ [x]) e (by rw [hh]; simp))
    rw [run_snoc]
    exact CalmInv.step (run_inv cap n _) hb hi h1 h2

/-! ### How long it takes -/

def Ph.rank : Ph → Nat
  | .idle => 6
  | .late => 5
  | .asleep => 4
  | .posted => 3
  | .go => 2
  | .after => 7
  | .done => 0

def St.mu (s : St) : Nat :=
  8 * (s.n - s.out.length) + s.rd.rank + (8 * (s.n - s.sent) + s.wr.rank) + (if s.bad = none then 1 else 0)

theorem mu_step {s : St} (hI : Inv s) (e : Ev) : s.step e = s ∨ (s.step e).mu < s.mu := by
  by_cases hb : s.bad = none
  · have hr := hI.hr
    have hw := hI.hw
    have hle := hI.le hb
    have hsn := hI.sent
    cases e
    · rw [step_r hb]
      unfold St.read
      split
      next hp =>
        right
        split
        · simp [St.mu, hp, Ph.rank]
        · split <;> simp [St.mu, hp, Ph.rank]
      next hp =>
        right
        have : s.hr = false := by cases h : s.hr <;> simp_all
        simp [this, St.mu, hp, Ph.rank]
      · exact .inl rfl
      next hp => right; simp [St.mu, hp, Ph.rank]
      next hp =>
        right
        split
        · simp [St.mu, hp, Ph.rank, hb]
        · have := hI.rd (by simp [hp])
          simp [St.mu, hp, Ph.rank]
          omega
      next hp =>
        right
        split
        · next hh => simp [St.mu, hp, Ph.rank, hw.1 hh]; omega
        · simp [St.mu, hp, Ph.rank]
      · exact .inl rfl
    · rw [step_w hb]
      unfold St.write
      split
      next hp =>
        right
        split
        · simp [St.mu, hp, Ph.rank]
        · split <;> simp [St.mu, hp, Ph.rank]
      next hp =>
        right
        have : s.hw = false := by cases h : s.hw <;> simp_all
        simp [this, St.mu, hp, Ph.rank]
      · exact .inl rfl
      next hp => right; simp [St.mu, hp, Ph.rank]
      next hp =>
        right
        split
        · have := hI.wr (by simp [hp])
          simp [St.mu, hp, Ph.rank]
          omega
        · simp [St.mu, hp, Ph.rank, hb]
      next hp =>
        right
        split
        · next hh => simp [St.mu, hp, Ph.rank, hr.1 hh]; omega
        · simp [St.mu, hp, Ph.rank]
      · exact .inl rfl
  · exact .inl (step_bad e hb)

theorem busy_mu {cap n h} (hb : Busy cap n h) : (run cap n h).mu + h.length ≤ 16 * n + 13 := by
  suffices ∀ l : List Ev, Busy cap n l.reverse → (run cap n l.reverse).mu + l.length ≤ 16 * n + 13 by
    have := this h.reverse
    rw [List.reverse_reverse, List.length_reverse] at this
    exact this hb
  intro l
  induction l with
  | nil => intro _; simp [run, St.init, St.mu, Ph.rank]; omega
  | cons x l ih =>
    intro hc
    rw [List.reverse_cons] at hc ⊢
    have h1 := ih (fun a e b hh => hc a e (b ++ [x]) (by rw [hh]; simp))
    have h2 := hc l.reverse x [] rfl
    rw [run_snoc] at h2 ⊢
    rcases mu_step (run_inv cap n l.reverse) x with h3 | h3
    · exact absurd h3 h2
    · rw [List.length_cons]; omega

end Cobalt.Lfq
