import Verif.Lfq.Spec
/-
What a turn does to the thread whose turn it is and to the other one.
-/
namespace Cobalt.Lfq

/-- What is true all the time. -/
structure Inv (s : St) : Prop where
  hr : s.hr = true ↔ s.rd = .asleep
  hw : s.hw = true ↔ s.wr = .asleep
  flow : s.bad = none → s.out ++ s.q = List.range s.sent
  len : s.q.length ≤ s.cap
  sent : s.sent ≤ s.n
  wr : s.wr = .late ∨ s.wr = .asleep ∨ s.wr = .posted ∨ s.wr = .go → s.sent < s.n
  rd : s.rd = .late ∨ s.rd = .asleep ∨ s.rd = .posted ∨ s.rd = .go → s.out.length < s.n
  rdone : s.rd = .done → s.out.length = s.n
  wdone : s.wr = .done → s.sent = s.n
  ok : s.bad ≠ some .assert
  rafter : s.rd = .after → 0 < s.out.length
  wafter : s.wr = .after → 0 < s.sent
  room : 0 < s.sent → 0 < s.cap

theorem Inv.init (cap n) : Inv (St.init cap n) := by
  constructor <;> simp [St.init]

theorem Inv.le {s : St} (h : Inv s) (hb : s.bad = none) : s.out.length + s.q.length = s.sent := by
  have := congrArg List.length (h.flow hb)
  simpa using this

theorem step_bad {s : St} (e : Ev) (hb : s.bad ≠ none) : s.step e = s := by
  have : s.bad.isSome = true := by cases h : s.bad <;> simp_all
  cases e <;> simp [St.step, this]

theorem step_r {s : St} (hb : s.bad = none) : s.step .r = s.read := by simp [St.step, hb]
theorem step_w {s : St} (hb : s.bad = none) : s.step .w = s.write := by simp [St.step, hb]

theorem Inv.read {s : St} (h : Inv s) (hb : s.bad = none) : Inv s.read := by
  have hl := h.le hb
  have hsent := h.sent
  have hr := h.hr
  have hw := h.hw
  unfold St.read
  split
  next hp =>
    split
    · next hn => exact ⟨by simp_all, h.hw, h.flow, h.len, h.sent, h.wr, by simp, by simp [hn], h.wdone, h.ok, by simp_all, h.wafter, h.room⟩
    · next hn =>
      split
      · exact ⟨by simp_all, h.hw, h.flow, h.len, h.sent, h.wr, by intro; show s.out.length < s.n; omega, by simp, h.wdone, h.ok, by simp_all, h.wafter, h.room⟩
      · exact ⟨by simp_all, h.hw, h.flow, h.len, h.sent, h.wr, by intro; show s.out.length < s.n; omega, by simp, h.wdone, h.ok, by simp_all, h.wafter, h.room⟩
  next hp =>
    split
    · next hh => simp_all
    · exact ⟨by simp, h.hw, h.flow, h.len, h.sent, h.wr, fun _ => h.rd (by simp [hp]), by simp, h.wdone, h.ok, by simp_all, h.wafter, h.room⟩
  · exact h
  next hp =>
    exact ⟨by simp_all, h.hw, h.flow, h.len, h.sent, h.wr, fun _ => h.rd (by simp [hp]), by simp, h.wdone, h.ok, by simp_all, h.wafter, h.room⟩
  next hp =>
    split
    · exact ⟨h.hr, h.hw, by simp, h.len, h.sent, h.wr, h.rd, h.rdone, h.wdone, by simp, h.rafter, h.wafter, h.room⟩
    · next v q hq =>
      refine ⟨by simp_all, h.hw, ?_, ?_, h.sent, h.wr, by simp, by simp, h.wdone, h.ok, by simp_all, h.wafter, h.room⟩
      · intro _
        have := h.flow hb
        rw [hq] at this
        simpa using this
      · have := h.len
        rw [hq] at this
        simp at this
        show q.length ≤ s.cap
        omega
  next hp =>
    split
    · next hh =>
      exact ⟨by simp_all, by simp, h.flow, h.len, h.sent, fun _ => h.wr (by simp [hw.1 hh]), by simp, by simp, by simp, h.ok, by simp, by simp, h.room⟩
    · next hh =>
      exact ⟨by simp_all, h.hw, h.flow, h.len, h.sent, h.wr, by simp, by simp, h.wdone, h.ok, by simp_all, h.wafter, h.room⟩
  · exact h

theorem Inv.write {s : St} (h : Inv s) (hb : s.bad = none) : Inv s.write := by
  have hl := h.le hb
  have hsent := h.sent
  have hr := h.hr
  have hw := h.hw
  unfold St.write
  split
  next hp =>
    split
    · next hn => exact ⟨h.hr, by simp_all, h.flow, h.len, h.sent, by simp, h.rd, h.rdone, by simp [hn], h.ok, h.rafter, by simp_all, h.room⟩
    · next hn =>
      split
      · exact ⟨h.hr, by simp_all, h.flow, h.len, h.sent, by intro; show s.sent < s.n; omega, h.rd, h.rdone, by simp, h.ok, h.rafter, by simp_all, h.room⟩
      · exact ⟨h.hr, by simp_all, h.flow, h.len, h.sent, by intro; show s.sent < s.n; omega, h.rd, h.rdone, by simp, h.ok, h.rafter, by simp_all, h.room⟩
  next hp =>
    split
    · next hh => simp_all
    · exact ⟨h.hr, by simp, h.flow, h.len, h.sent, fun _ => h.wr (by simp [hp]), h.rd, h.rdone, by simp, h.ok, h.rafter, by simp_all, h.room⟩
  · exact h
  next hp =>
    exact ⟨h.hr, by simp_all, h.flow, h.len, h.sent, fun _ => h.wr (by simp [hp]), h.rd, h.rdone, by simp, h.ok, h.rafter, by simp_all, h.room⟩
  next hp =>
    split
    · next hq =>
      refine ⟨h.hr, by simp_all, ?_, ?_, ?_, by simp, h.rd, h.rdone, by simp, h.ok, h.rafter, by simp, fun _ => Nat.lt_of_le_of_lt (Nat.zero_le _) hq⟩
      · intro _
        show s.out ++ (s.q ++ [s.sent]) = List.range (s.sent + 1)
        rw [← List.append_assoc, h.flow hb, List.range_succ]
      · show (s.q ++ [s.sent]).length ≤ s.cap
        simp; omega
      · have := h.wr (by simp [hp])
        show s.sent + 1 ≤ s.n
        omega
    · exact ⟨h.hr, h.hw, by simp, h.len, h.sent, h.wr, h.rd, h.rdone, h.wdone, by simp, h.rafter, h.wafter, h.room⟩
  next hp =>
    split
    · next hh =>
      exact ⟨by simp, by simp_all, h.flow, h.len, h.sent, by simp, fun _ => h.rd (by simp [hr.1 hh]), by simp, by simp, h.ok, by simp, by simp, h.room⟩
    · next hh =>
      exact ⟨h.hr, by simp_all, h.flow, h.len, h.sent, by simp, h.rd, h.rdone, by simp, h.ok, h.rafter, by simp_all, h.room⟩
  · exact h

theorem Inv.step {s : St} (h : Inv s) (e : Ev) : Inv (s.step e) := by
  by_cases hb : s.bad = none
  · cases e
    · rw [step_r hb]; exact h.read hb
    · rw [step_w hb]; exact h.write hb
  · rw [step_bad e hb]; exact h

theorem run_snoc (cap n h e) : run cap n (h ++ [e]) = (run cap n h).step e := by
  simp [run]

theorem run_inv (cap n h) : Inv (run cap n h) := by
  unfold run
  suffices ∀ (l : List Ev) (s : St), Inv s → Inv (l.foldl St.step s) from this h _ (Inv.init cap n)
  intro l
  induction l with
  | nil => intro s hs; exact hs
  | cons e l ih => intro s hs; exact ih _ (hs.step e)

theorem step_cap (s : St) (e) : (s.step e).cap = s.cap ∧ (s.step e).n = s.n := by
  cases e <;> simp only [St.step, St.read, St.write] <;> (repeat' split) <;> exact ⟨rfl, rfl⟩

theorem run_cap (cap n h) : (run cap n h).cap = cap ∧ (run cap n h).n = n := by
  unfold run
  suffices ∀ (l : List Ev) (s : St), (l.foldl St.step s).cap = s.cap ∧ (l.foldl St.step s).n = s.n from
    this h _
  intro l
  induction l with
  | nil => intro s; exact ⟨rfl, rfl⟩
  | cons e l ih => intro s; exact ⟨(ih _).1.trans (step_cap s e).1, (ih _).2.trans (step_cap s e).2⟩

/-! What happens to the thread whose turn it is. -/

theorem own_idle {s : St} {e : Ev} (h : s.Finds e) :
    (s.step e).ph e = .late ∧ (s.step e).Blk e ∧ (s.step e).bad = none := by
  obtain ⟨hb, hp, hw, hk⟩ := h
  cases e
  · rw [step_r hb]
    simp only [St.ph, St.Wants, St.Blk] at hp hw hk ⊢
    simp [St.read, hp, hw, hk, hb]
  · rw [step_w hb]
    simp only [St.ph, St.Wants, St.Blk] at hp hw hk ⊢
    simp [St.write, hp, hw, hk, hb, Nat.not_lt.2 hk]

theorem own_idle' {s : St} {e : Ev} (hb : s.bad = none) (hp : s.ph e = .idle) (hf : ¬ s.Finds e) :
    (s.step e).bad = none ∧
      ((s.step e).ph e = .done ∨ (s.step e).ph e = .go ∧ ¬ (s.step e).Blk e) := by
  cases e
  · rw [step_r hb]
    simp only [St.Finds, St.ph, St.Wants, St.Blk] at hp hf ⊢
    simp only [St.read, hp]
    split
    · simp [hb]
    · split
      · simp_all
      · simp [hb, *]
  · rw [step_w hb]
    simp only [St.Finds, St.ph, St.Wants, St.Blk] at hp hf ⊢
    simp only [St.write, hp]
    split
    · simp [hb]
    · split
      · simp [hb, *]
      · next h1 h2 => exact absurd ⟨hb, hp, h1, Nat.not_lt.1 h2⟩ hf

theorem own_late {s : St} {e : Ev} (hI : Inv s) (hb : s.bad = none) (hp : s.ph e = .late) :
    (s.step e).ph e = .asleep ∧ ((s.step e).Blk e ↔ s.Blk e) ∧ (s.step e).bad = none := by
  have hr := hI.hr
  have hw := hI.hw
  cases e
  · rw [step_r hb]
    simp only [St.ph, St.Blk] at hp ⊢
    have : s.hr = false := by cases h : s.hr <;> simp_all
    simp [St.read, hp, hb, this]
  · rw [step_w hb]
    simp only [St.ph, St.Blk] at hp ⊢
    have : s.hw = false := by cases h : s.hw <;> simp_all
    simp [St.write, hp, hb, this]

theorem own_asleep {s : St} {e : Ev} (hp : s.ph e = .asleep) : s.step e = s := by
  cases e <;> simp only [St.ph] at hp <;> simp [St.step, St.read, St.write, hp]

theorem own_done {s : St} {e : Ev} (hp : s.ph e = .done) : s.step e = s := by
  cases e <;> simp only [St.ph] at hp <;> simp [St.step, St.read, St.write, hp]

theorem own_posted {s : St} {e : Ev} (hb : s.bad = none) (hp : s.ph e = .posted) :
    (s.step e).ph e = .go ∧ ((s.step e).Blk e ↔ s.Blk e) ∧ (s.step e).bad = none := by
  cases e <;> simp only [St.ph] at hp <;> simp [St.step, St.read, St.write, hp, hb, St.ph, St.Blk]

theorem own_go_blk {s : St} {e : Ev} (hb : s.bad = none) (hp : s.ph e = .go) (hk : s.Blk e) :
    (s.step e).bad = some e.fault := by
  cases e
  · rw [step_r hb]
    simp only [St.ph, St.Blk] at hp hk ⊢
    simp [St.read, hp, hk, Ev.fault]
  · rw [step_w hb]
    simp only [St.ph, St.Blk] at hp hk ⊢
    simp [St.write, hp, Nat.not_lt.2 hk, Ev.fault]

theorem own_go {s : St} {e : Ev} (hb : s.bad = none) (hp : s.ph e = .go) (hk : ¬ s.Blk e) :
    (s.step e).ph e = .after ∧ (s.step e).bad = none := by
  cases e
  · rw [step_r hb]
    simp only [St.ph, St.Blk] at hp hk ⊢
    simp only [St.read, hp]
    split
    · contradiction
    · exact ⟨rfl, hb⟩
  · rw [step_w hb]
    simp only [St.ph, St.Blk] at hp hk ⊢
    simp [St.write, hp, Nat.not_le.1 hk, hb]

theorem own_after {s : St} {e : Ev} (hb : s.bad = none) (hp : s.ph e = .after) :
    (s.step e).ph e = .idle ∧ (s.step e).bad = none := by
  cases e <;> simp only [St.ph] at hp <;> simp only [St.step, St.read, St.write, hp, hb, St.ph] <;>
    simp only [Option.isSome_none, Bool.false_eq_true, if_false] <;> split <;> exact ⟨rfl, rfl⟩

/-! What happens to the other one. -/

theorem other_other (e : Ev) : e.other.other = e := by cases e <;> rfl

theorem other_ne (e : Ev) : e.other ≠ e := by cases e <;> simp [Ev.other]

theorem eq_or (x e : Ev) : x = e ∨ x = e.other := by cases x <;> cases e <;> simp [Ev.other]

/-- The other one is where it was, unless it is woken. -/
theorem oth_ph {s : St} {e : Ev} (hI : Inv s) (hb : s.bad = none) :
    (s.step e.other).ph e =
      if s.ph e.other = .after ∧ s.ph e = .asleep then .posted else s.ph e := by
  have hr := hI.hr
  have hw := hI.hw
  cases e
  · rw [show Ev.r.other = .w from rfl, step_w hb]
    simp only [St.ph]
    unfold St.write
    split <;> (repeat' split) <;> simp_all
  · rw [show Ev.w.other = .r from rfl, step_r hb]
    simp only [St.ph]
    unfold St.read
    split <;> (repeat' split) <;> simp_all

/-- It has to wait still, unless a value was moved. -/
theorem oth_blk {s : St} {e : Ev} (hI : Inv s) (hb : s.bad = none) (hb' : (s.step e.other).bad = none) :
    (s.step e.other).Blk e ↔ s.Blk e ∧ s.ph e.other ≠ .go := by
  have hl := hI.len
  cases e
  · rw [show Ev.r.other = .w from rfl, step_w hb] at *
    simp only [St.ph, St.Blk]
    revert hb'
    unfold St.write
    split <;> (repeat' split) <;> simp_all
  · rw [show Ev.w.other = .r from rfl, step_r hb] at *
    simp only [St.ph, St.Blk]
    revert hb'
    unfold St.read
    split <;> (repeat' split) <;> simp_all
    omega

/-- Nobody but the one who fails has the failure. -/
theorem bad_step {s : St} {x e : Ev} (hI : Inv s) (hb : s.bad = none) (h : (s.step x).bad = some e.fault) :
    x = e ∧ s.ph e = .go ∧ s.Blk e := by
  have hk : ∀ y : Ev, s.ph y = .go → s.Blk y ∨ ¬ s.Blk y := fun y _ => Classical.em _
  have key : s.ph x = .go ∧ s.Blk x := by
    apply Classical.byContradiction
    intro hc
    have : (s.step x).bad = none := by
      cases hp : s.ph x
      · by_cases hf : s.Finds x
        · exact (own_idle hf).2.2
        · exact (own_idle' hb hp hf).1
      · exact (own_late hI hb hp).2.2
      · rw [own_asleep hp]; exact hb
      · exact (own_posted hb hp).2.2
      · exact (own_go hb hp (fun hk => hc ⟨hp, hk⟩)).2
      · exact (own_after hb hp).2
      · rw [own_done hp]; exact hb
    rw [this] at h
    cases h
  have hx := own_go_blk hb key.1 key.2
  rw [hx] at h
  have : x = e := by cases x <;> cases e <;> simp_all [Ev.fault]
  subst this
  exact ⟨rfl, key⟩

end Cobalt.Lfq
