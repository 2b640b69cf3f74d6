import Verif.Time.Lemmas
/-!
# Properties of sleeping and timers
-/
namespace Cobalt.Time

/-! ## Sleeping -/

/-- A sleep for a duration, begun at `now`, is defined and never ends before the duration has
passed, whenever it is awaited. -/
def RightFor (now : Int) (p : Period) (count : Int) : Prop :=
  ∃ tp, sleepFor now p count = some tp ∧
    ∀ t1 t, now ≤ t1 → EndsAt tp t1 t → Passed now p count t

/-- A sleep until a time point is defined and never ends before it. -/
def RightUntil (p : Period) (count : Int) : Prop :=
  ∃ tp, sleepUntil p count = some tp ∧ ∀ t1 t, EndsAt tp t1 t → Passed 0 p count t

/-- **C64**, in full. -/
def C64 : Prop :=
  (∀ now p count, In64 now → In64 count → 0 < p.num → 0 < p.den → RightFor now p count) ∧
  (∀ p count, In64 count → 0 < p.num → 0 < p.den → RightUntil p count)

/-- `duration::max()`, the usual way to say forever, is undefined behaviour. -/
theorem C64_violated : ¬ C64 := by
  intro h
  obtain ⟨tp, h1, _⟩ := h.1 1 ⟨1, 10 ^ 9⟩ hi (by decide) (by decide) (by decide) (by decide)
  have : sleepFor 1 ⟨1, 10 ^ 9⟩ hi = none := by decide
  rw [this] at h1
  cases h1

/-- In hours the range ends already after 292 years: the conversion overflows. -/
theorem C64_hours_violated : sleepFor 0 ⟨3600, 1⟩ 2562048 = none ∧
    sleepUntil ⟨3600, 1⟩ 2562048 = none := by decide

/-- On the usual hardware such a sleep is over at once. -/
theorem C64_forever_is_over (now t1 t : Int) (h0 : 0 < now) (hn : now ≤ hi) (h1 : now ≤ t1)
    (h : EndsAt (wrap (now + hi)) t1 t) : t = t1 := by
  have hw : wrap (now + hi) < t1 := by
    unfold wrap hi at *
    omega
  simpa [EndsAt, hw] using h

example : wrap (1 + hi) = lo := by decide

/-- Less than a nanosecond is cut off. -/
theorem C64_truncates : sleepFor 0 ⟨1, 10 ^ 12⟩ 1999 = some 1 ∧
    EndsAt 1 0 1 ∧ ¬ Passed 0 ⟨1, 10 ^ 12⟩ 1999 1 := by
  refine ⟨by decide, by simp [EndsAt], ?_⟩
  unfold Passed
  decide

theorem ends_le {tp t1 t : Int} (h : EndsAt tp t1 t) : tp ≤ t := by
  unfold EndsAt at h
  split at h <;> omega

theorem chk_some {x y : Int} : chk x = some y ↔ In64 x ∧ x = y := by
  unfold chk In64
  split
  · rename_i h; simp [h]
  · rename_i h; simp only [reduceCtorEq, false_iff]; exact fun h' => h h'.1

theorem cast_some {p : Period} {count y : Int} :
    cast p count = some y ↔ In64 (count * p.cn) ∧ (count * p.cn).tdiv p.cd = y := by
  unfold cast
  constructor
  · intro h
    simp only [Option.map_eq_some_iff] at h
    obtain ⟨x, h1, h2⟩ := h
    obtain ⟨h3, h4⟩ := chk_some.mp h1
    subst h4
    exact ⟨h3, h2⟩
  · intro h
    simp only [Option.map_eq_some_iff]
    exact ⟨_, chk_some.mpr ⟨h.1, rfl⟩, h.2⟩

/-- The reduced fraction. -/
theorem reduced {p : Period} (hn : 0 < p.num) (hd : 0 < p.den) :
    ∃ g : Nat, 0 < g ∧ p.num * 10 ^ 9 = p.cn * g ∧ p.den = p.cd * g ∧ 0 < p.cd ∧ 0 < p.cn := by
  have hg : 0 < Nat.gcd (p.num * 10 ^ 9) p.den := Nat.gcd_pos_of_pos_right _ hd
  have h1 : p.num * 10 ^ 9 = p.cn * Nat.gcd (p.num * 10 ^ 9) p.den :=
    (Nat.div_mul_cancel (Nat.gcd_dvd_left _ _)).symm
  have h2 : p.den = p.cd * Nat.gcd (p.num * 10 ^ 9) p.den :=
    (Nat.div_mul_cancel (Nat.gcd_dvd_right _ _)).symm
  refine ⟨_, hg, h1, h2, ?_, ?_⟩
  · rcases Nat.eq_zero_or_pos p.cd with h | h
    · rw [h, Nat.zero_mul] at h2; omega
    · exact h
  · rcases Nat.eq_zero_or_pos p.cn with h | h
    · rw [h, Nat.zero_mul] at h1
      have : 0 < p.num * 10 ^ 9 := Nat.mul_pos hn (by decide)
      omega
    · exact h

theorem passed_iff {now : Int} {p : Period} {count t : Int} (hn : 0 < p.num) (hd : 0 < p.den) :
    Passed now p count t ↔ count * p.cn ≤ (t - now) * p.cd := by
  obtain ⟨g, hg, h1, h2, _, _⟩ := reduced hn hd
  unfold Passed
  have e1 : count * p.num * 10 ^ 9 = count * p.cn * g := by
    have : ((p.num * 10 ^ 9 : Nat) : Int) = ((p.cn * g : Nat) : Int) := by rw [h1]
    simp only [Int.natCast_mul] at this
    have h9 : ((10 ^ 9 : Nat) : Int) = 10 ^ 9 := by decide
    rw [h9] at this
    rw [Int.mul_assoc, this, Int.mul_assoc]
  have e2 : (t - now) * (p.den : Int) = (t - now) * p.cd * g := by
    have : (p.den : Int) = ((p.cd * g : Nat) : Int) := by rw [← h2]
    rw [this, Int.natCast_mul, Int.mul_assoc]
  rw [e1, e2]
  exact Int.mul_le_mul_right (by omega)

/-- Division with truncation reaches the dividend from below or divides. -/
theorem tdiv_reach {x : Int} {d : Nat} (hd : 0 < d) (h : x ≤ 0 ∨ (d : Int) ∣ x) :
    x ≤ x.tdiv d * d := by
  rcases h with h | h
  · have h1 := Int.mul_tdiv_add_tmod x d
    have h2 : x.tmod d ≤ 0 := by
      have h3 : 0 ≤ (-x).tmod d := Int.tmod_nonneg (d : Int) (by omega)
      rw [Int.neg_tmod] at h3
      omega
    rw [Int.mul_comm] at h1
    omega
  · rw [Int.tdiv_mul_cancel h]
    exact Int.le_refl _

theorem tdiv_short {x : Int} {d : Nat} (h : 0 ≤ x) : x.tdiv d * d ≤ x := by
  have h1 := Int.mul_tdiv_add_tmod x d
  have h2 : 0 ≤ x.tmod d := Int.tmod_nonneg (d : Int) h
  rw [Int.mul_comm] at h1
  omega

/-- A sleep for a duration is right exactly if neither the conversion nor the addition
overflows and no part of a nanosecond is cut off. -/
theorem C64_for_exact (now : Int) (p : Period) (count : Int) (hn : 0 < p.num) (hd : 0 < p.den) :
    RightFor now p count ↔
      In64 (count * p.cn) ∧ In64 (now + (count * p.cn).tdiv p.cd) ∧
      (count ≤ 0 ∨ (p.cd : Int) ∣ count * p.cn) := by
  obtain ⟨_, _, _, _, hcd, hcn⟩ := reduced hn hd
  constructor
  · rintro ⟨tp, h1, h2⟩
    simp only [sleepFor, Option.bind_eq_some_iff] at h1
    obtain ⟨du, h3, h4⟩ := h1
    obtain ⟨h5, h6⟩ := cast_some.mp h3
    obtain ⟨h7, h8⟩ := chk_some.mp h4
    subst h6
    refine ⟨h5, h7, ?_⟩
    by_cases hc : count ≤ 0
    · exact .inl hc
    · right
      have hx : 0 ≤ count * p.cn := Int.mul_nonneg (by omega) (by omega)
      have hdu : 0 ≤ (count * p.cn).tdiv p.cd := Int.tdiv_nonneg hx (by omega)
      have h9 := h2 now tp (Int.le_refl _) (by
        have hlt : ¬ tp < now := by omega
        simp only [EndsAt, hlt, if_false]
        omega)
      rw [passed_iff hn hd] at h9
      have h10 : tp - now = (count * p.cn).tdiv p.cd := by omega
      rw [h10] at h9
      have h11 := tdiv_short (d := p.cd) hx
      exact ⟨(count * p.cn).tdiv p.cd, by rw [Int.mul_comm (p.cd : Int)]; omega⟩
  · rintro ⟨h1, h2, h3⟩
    refine ⟨now + (count * p.cn).tdiv p.cd, ?_, ?_⟩
    · simp only [sleepFor, Option.bind_eq_some_iff]
      exact ⟨_, cast_some.mpr ⟨h1, rfl⟩, chk_some.mpr ⟨h2, rfl⟩⟩
    · intro t1 t _ he
      rw [passed_iff hn hd]
      have hle := ends_le he
      have h4 : (count * p.cn).tdiv p.cd ≤ t - now := by omega
      have h5 := Int.mul_le_mul_of_nonneg_right h4 (c := (p.cd : Int)) (by omega)
      refine Int.le_trans (tdiv_reach hcd ?_) h5
      rcases h3 with h3 | h3
      · exact .inl (Int.mul_nonpos_of_nonpos_of_nonneg h3 (by omega))
      · exact .inr h3

/-- The same of a sleep until a time point. -/
theorem C64_until_exact (p : Period) (count : Int) (hn : 0 < p.num) (hd : 0 < p.den) :
    RightUntil p count ↔
      In64 (count * p.cn) ∧ (count ≤ 0 ∨ (p.cd : Int) ∣ count * p.cn) := by
  obtain ⟨_, _, _, _, hcd, hcn⟩ := reduced hn hd
  constructor
  · rintro ⟨tp, h1, h2⟩
    obtain ⟨h5, h6⟩ := cast_some.mp h1
    refine ⟨h5, ?_⟩
    by_cases hc : count ≤ 0
    · exact .inl hc
    · right
      have hx : 0 ≤ count * p.cn := Int.mul_nonneg (by omega) (by omega)
      have h9 := h2 tp tp (by simp [EndsAt])
      rw [passed_iff hn hd, Int.sub_zero, ← h6] at h9
      have h11 := tdiv_short (d := p.cd) hx
      exact ⟨(count * p.cn).tdiv p.cd, by rw [Int.mul_comm (p.cd : Int)]; omega⟩
  · rintro ⟨h1, h3⟩
    refine ⟨(count * p.cn).tdiv p.cd, cast_some.mpr ⟨h1, rfl⟩, ?_⟩
    intro t1 t he
    rw [passed_iff hn hd, Int.sub_zero]
    have hle := ends_le he
    have h5 := Int.mul_le_mul_of_nonneg_right hle (c := (p.cd : Int)) (by omega)
    refine Int.le_trans (tdiv_reach hcd ?_) h5
    rcases h3 with h3 | h3
    · exact .inl (Int.mul_nonpos_of_nonpos_of_nonneg h3 (by omega))
    · exact .inr h3

/-- What holds: a sleep is right in units of a whole number of nanoseconds, as long as the end
can be represented. -/
theorem C64_partial (now : Int) (p : Period) (count : Int) (hn : 0 < p.num) (hd : 0 < p.den)
    (hu : p.cd = 1) (hr : In64 (count * p.cn)) (hs : In64 (now + count * p.cn)) :
    RightFor now p count ∧ RightUntil p count := by
  have h1 : (p.cd : Int) ∣ count * p.cn := ⟨count * p.cn, by rw [hu]; simp⟩
  refine ⟨(C64_for_exact now p count hn hd).mpr ⟨hr, ?_, .inr h1⟩,
    (C64_until_exact p count hn hd).mpr ⟨hr, .inr h1⟩⟩
  rw [hu]
  simpa using hs

-- ten minutes, on a machine up for a year
example : (⟨60, 1⟩ : Period).cd = 1 ∧ In64 (10 * (⟨60, 1⟩ : Period).cn) ∧
    In64 (31536000000000000 + 10 * (⟨60, 1⟩ : Period).cn) := by
  unfold In64
  decide

/-- A timer set by a duration is defined for all of them: it saturates, and a wait ends before
the duration has passed only if the clock has come to its end. -/
theorem C64_timer (now d t1 t : Int) (hn : In64 now) (hd : In64 d) (ht : In64 t)
    (h : EndsAt (satAdd now d) t1 t) :
    In64 (satAdd now d) ∧ (now + d ≤ t ∨ t = hi) := by
  have hle := ends_le h
  clear h
  unfold In64 satAdd lo hi at *
  (repeat' split at hle) <;> (repeat' split) <;> omega

example : satAdd 5 hi = hi ∧ satAdd (-5) lo = lo ∧ satAdd 5 7 = 12 := by decide

/-! ## Timers -/

/-- What is to be seen of a timer: every wait is started once and ends at most once, with
success only when its expiry was reached, aborted only after a call which aborts. -/
structure Orderly (s : Timer) : Prop where
  starts : s.log.filterMap Obs.startOf = List.range s.next
  once : (s.log.filterMap Obs.endOf).Nodup
  early : ∀ id t, .ended id .ok t ∈ s.log → ∃ e t0, .started id e t0 ∈ s.log ∧ e ≤ t
  aborts : AbortsWhy s.log

/-- **C65**: waits on a timer are orderly; one which is expired does not suspend; none is
pending any more once the expiry is reached and the reactor has looked, or after a change of
the expiry or a cancellation. -/
theorem C65 (now e : Int) (es : List Ev) :
    let s := Timer.run { now := now, expiry := e } es
    Orderly s ∧
    (s.expired = true → .ended s.next .ok s.now ∈ (s.step .wait).log) ∧
    (∀ ev, (ev = .poll ∧ s.expiry ≤ s.now) ∨ ev = .cancel ∨ (∃ tp, ev = .resetAt tp) ∨
        (∃ d, ev = .resetAfter d) →
      ∀ id, id < s.next → ∃ r t, .ended id r t ∈ (s.step ev).log) := by
  intro s
  have h : Inv s := (Inv.init now e).run es
  refine ⟨⟨h.starts, h.ends, h.early, h.aborts⟩, ?_, ?_⟩
  · intro hx
    have hlt : s.expiry < s.now := by simpa [Timer.expired] using hx
    simp [Timer.step, hlt]
  · intro ev hev id hid
    have h' : Inv (s.step ev) := h.step ev
    have hp : (s.step ev).pending = [] ∧ (s.step ev).next = s.next := by
      rcases hev with ⟨h1, h2⟩ | h1 | ⟨tp, h1⟩ | ⟨d, h1⟩ <;> subst h1
      · simp [Timer.step, h2, Timer.endAll]
      all_goals exact ⟨rfl, rfl⟩
    rcases h'.all id (by omega) with hr | ⟨w, hw, _⟩
    · exact hr
    · rw [hp.1] at hw; cases hw

example : (Timer.run { now := 0, expiry := 10 }
    [.wait, .wait, .clock 4, .cancelWait 0, .clock 12, .poll, .wait, .resetAfter 5, .wait,
     .cancel]).log =
  [.started 0 10 0, .started 1 10 0, .stopped, .ended 0 .aborted 4, .ended 1 .ok 12,
   .started 2 10 12, .ended 2 .ok 12, .stopped, .started 3 17 12, .stopped,
   .ended 3 .aborted 12] := by decide

/-- A reset sets the expiry: the next wait is for the time given, or for that much after now,
as far as the clock reaches. -/
theorem C65_reset (s : Timer) (d tp : Int) (hn : In64 s.now) (hd : In64 d) (hf : ¬ tp < s.now)
    (hd0 : 0 ≤ d) :
    ((s.step (.resetAt tp)).step .wait).pending = [⟨s.next, tp⟩] ∧
    ((s.step (.resetAfter d)).step .wait).pending = [⟨s.next, min hi (s.now + d)⟩] := by
  have e : satAdd s.now d = min hi (s.now + d) := by
    unfold In64 satAdd lo hi at *
    (repeat' split) <;> omega
  have hlt : ¬ min hi (s.now + d) < s.now := by
    unfold In64 lo hi at *
    omega
  refine ⟨?_, ?_⟩
  · simp [Timer.step, Timer.abort, Timer.endAll, hf]
  · simp only [Timer.step, Timer.abort, Timer.endAll, e, hlt, if_false]
    rfl

example : In64 7 ∧ In64 (10 ^ 9) ∧ ¬ (100 : Int) < 7 := by unfold In64 lo hi; omega

end Cobalt.Time
