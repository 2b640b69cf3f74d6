import Verif.Gen.ChainAhead
/-! A chain comes to rest. -/
namespace Cobalt.Gen.Chain

open Prom (upd upd_apply)

/-- What happened to a loop and its generator. -/
def mm (l : For.St) : Nat :=
  l.next + (if l.phase = .finished then 1 else 0) + (if l.g.done = true then 1 else 0) + l.g.received.length

def m (s : St) (k : Nat) : Nat := s.sent k + mm (s.l k)

/-- The sum up to `n`. -/
def total (f : Nat → Nat) : Nat → Nat
  | 0 => f 0
  | n + 1 => total f n + f (n + 1)

theorem total_mono {f g : Nat → Nat} (h : ∀ k, f k ≤ g k) : ∀ n, total f n ≤ total g n
  | 0 => h 0
  | n + 1 => Nat.add_le_add (total_mono h n) (h (n + 1))

theorem total_lt {f g : Nat → Nat} (h : ∀ k, f k ≤ g k) {j : Nat} (hj : f j < g j) : ∀ n, j ≤ n → total f n + 1 ≤ total g n
  | 0, hn => by
    obtain rfl : j = 0 := by omega
    exact hj
  | n + 1, hn => by
    simp only [total]
    have := h (n + 1)
    by_cases hx : j = n + 1
    · subst hx
      have := total_mono h n
      omega
    · have := total_lt h hj n (by omega)
      omega

theorem total_le {f : Nat → Nat} {b : Nat} : ∀ n, (∀ k, k ≤ n → f k ≤ b) → total f n ≤ (n + 1) * b
  | 0, h => by simpa [total] using h 0 (Nat.le_refl _)
  | n + 1, h => by
    have h1 := total_le n (fun k hk => h k (by omega))
    have h2 := h (n + 1) (Nat.le_refl _)
    rw [total, Nat.succ_mul]
    omega

theorem mm_other {l : For.St} {e : Gen.Ev} (he : (∃ v, e = .yield v) ∨ (∃ v, e = .ret v) ∨ (∃ x, e = .throw x) ∨ e = .run) :
    mm l ≤ mm (l.step (.other e)) := by
  obtain ⟨h1, h2, h3, -⟩ := For.other_grows l he
  have h4 := (For.other_keeps l e).1
  unfold mm
  rw [h1]
  have h5 : (if l.phase = .finished then 1 else 0) ≤ (if (l.step (.other e)).phase = .finished then 1 else 0) := by
    by_cases hf : l.phase = .finished
    · rw [if_pos hf, (h4 (by simp [hf])).1, if_pos hf]; exact Nat.le_refl _
    · rw [if_neg hf]; exact Nat.zero_le _
  have h6 : (if l.g.done = true then 1 else 0) ≤ (if (l.step (.other e)).g.done = true then 1 else 0) := by
    by_cases hd : l.g.done = true
    · rw [if_pos hd, if_pos (h2 hd)]; exact Nat.le_refl _
    · rw [if_neg hd]; exact Nat.zero_le _
  omega

theorem mm_turn {l : For.St} (hc : l.can .turn = true) : mm l + 1 ≤ mm (l.step .turn) := by
  obtain ⟨h1, h2, h3, -⟩ := For.turn_grows l hc
  have hp : l.phase = .head := by simpa [For.St.can] using hc
  unfold mm
  have h6 : (if l.g.done = true then 1 else 0) ≤ (if (l.step .turn).g.done = true then 1 else 0) := by
    by_cases hd : l.g.done = true
    · rw [if_pos hd, if_pos (h2 hd)]; exact Nat.le_refl _
    · rw [if_neg hd]; exact Nat.zero_le _
  have h7 : (if l.phase = .finished then 1 else 0) = 0 := by rw [hp]; rfl
  rcases h1 with h1 | ⟨h1, h8⟩
  · rw [h1, h7]; omega
  · rw [h1, h7, if_pos h8]; omega

variable {c : Cfg} {s : St} {p : Nat → Sp} {src : Str} {k : Nat}

theorem m_on (s : St) {j : Nat} {e : For.Ev} (h : mm (s.l j) ≤ mm ((s.l j).step e)) : ∀ k, m s k ≤ m (s.on j e) k := by
  intro k
  by_cases hk : k = j
  · subst hk
    unfold m
    rw [on_same]
    exact Nat.add_le_add_left h _
  · unfold m
    rw [on_other _ _ hk]
    exact Nat.le_refl _

theorem m_on_lt (s : St) {j : Nat} {e : For.Ev} (h : mm (s.l j) < mm ((s.l j).step e)) : m s j < m (s.on j e) j := by
  unfold m
  rw [on_same]
  exact Nat.add_lt_add_left h _

theorem One.run_counts (o : One c s p k) (hc : (s.l k).can (.other .run) = true) :
    mm (s.l k) < mm ((s.l k).step (.other .run)) := by
  obtain ⟨h1, h2, h3, -⟩ := For.other_grows (s.l k) (e := .run) (.inr (.inr (.inr rfl)))
  have h4 := (For.other_keeps (s.l k) .run).1
  have hph : (s.l k).g.phase = .posted := by simpa [For.St.can, Gen.St.can] using hc
  obtain ⟨u, hi⟩ := o.li.inv
  have hg : ((s.l k).step (.other .run)).g = (s.l k).g.bodyResume := by
    rw [(For.other_keeps (s.l k) .run).2.2.2 hc]
    unfold Gen.St.step
    rw [if_neg (by simp [hi.ub, Gen.St.can, hph])]
    simp [o.recv]
  have hr : ((s.l k).step (.other .run)).g.received.length = (s.l k).g.received.length + 1 := by
    rw [hg]
    unfold Gen.St.bodyResume
    cases hp : (s.l k).g.pushed with
    | none => exact absurd hp (hi.eagerQ o.recv hph).2.1
    | some v => simp
  unfold mm
  rw [h1, hr]
  have h5 : (if (s.l k).phase = .finished then 1 else 0) ≤ (if ((s.l k).step (.other .run)).phase = .finished then 1 else 0) := by
    by_cases hf : (s.l k).phase = .finished
    · rw [if_pos hf, (h4 (by simp [hf])).1, if_pos hf]; exact Nat.le_refl _
    · rw [if_neg hf]; exact Nat.zero_le _
  have h6 : (if (s.l k).g.done = true then 1 else 0) ≤ (if ((s.l k).step (.other .run)).g.done = true then 1 else 0) := by
    by_cases hd : (s.l k).g.done = true
    · rw [if_pos hd, if_pos (h2 hd)]; exact Nat.le_refl _
    · rw [if_neg hd]; exact Nat.zero_le _
  omega

/-- The body of a generator ends once. -/
theorem One.end_counts (o : One c s p k) {e : Gen.Ev} (he : (∃ v, e = .ret v) ∨ ∃ x, e = .throw x)
    (hc : (s.l k).can (.other e) = true) : mm (s.l k) < mm ((s.l k).step (.other e)) := by
  have he' : (∃ v, e = .yield v) ∨ (∃ v, e = .ret v) ∨ (∃ x, e = .throw x) ∨ e = .run := by
    rcases he with h | h
    · exact .inr (.inl h)
    · exact .inr (.inr (.inl h))
  obtain ⟨h1, h2, h3, -⟩ := For.other_grows (s.l k) he'
  have h4 := (For.other_keeps (s.l k) e).1
  have hpl : Plain (.other e) := by
    rcases he with ⟨v, rfl⟩ | ⟨x, rfl⟩
    · exact .ret v
    · exact .throw x
  have hph : (s.l k).g.phase = .running := by
    rcases he with ⟨v, rfl⟩ | ⟨x, rfl⟩ <;> simpa [For.St.can, Gen.St.can] using hc
  have hal := (o.alive hph).1
  obtain ⟨u, hi⟩ := o.li.inv
  have hd : (s.l k).g.done = false := (hi.ended o.recv).trans hal
  have hd' : ((s.l k).step (.other e)).g.done = true := by
    have o' := o.on hpl hc (fun hx => by cases hx)
    have hli := o'.li
    have hr := o'.recv
    rw [on_same] at hli hr
    rw [note_same] at hli
    obtain ⟨u', hi'⟩ := hli.inv
    rw [hi'.ended hr]
    rcases he with ⟨v, rfl⟩ | ⟨x, rfl⟩ <;> rfl
  unfold mm
  rw [h1, hd, hd']
  have h5 : (if (s.l k).phase = .finished then 1 else 0) ≤ (if ((s.l k).step (.other e)).phase = .finished then 1 else 0) := by
    by_cases hf : (s.l k).phase = .finished
    · rw [if_pos hf, (h4 (by simp [hf])).1, if_pos hf]; exact Nat.le_refl _
    · rw [if_neg hf]; exact Nat.zero_le _
  simp only [Bool.false_eq_true, if_false, if_true]
  omega

/-- The source did something. -/
def Ev.ofSrc : Ev → Bool
  | .src _ => true
  | _ => false

/-- Each event that is not of the source counts. -/
theorem CI.counts (h : CI c src p s) {e : Ev} (hc : can c s e = true) :
    total (m s) c.n + (if e.ofSrc then 0 else 1) ≤ total (m (Chain.step c s e)) c.n := by
  unfold Chain.step
  rw [if_pos hc]
  cases e with
  | src a =>
    simp only [Ev.ofSrc, if_true, Nat.add_zero]
    refine total_mono (m_on s (mm_other ?_)) _
    cases a with
    | yield v => exact .inl ⟨v, rfl⟩
    | ret v => exact .inr (.inl ⟨v, rfl⟩)
    | throw x => exact .inr (.inr (.inl ⟨x, rfl⟩))
  | run k =>
    simp only [Ev.ofSrc, Bool.false_eq_true, if_false]
    simp only [can, Bool.and_eq_true, decide_eq_true_eq] at hc
    have hlt := (h.one k).run_counts hc.2
    exact total_lt (m_on s (Nat.le_of_lt hlt)) (m_on_lt s hlt) _ hc.1
  | go k =>
    simp only [Ev.ofSrc, Bool.false_eq_true, if_false]
    simp only [can, Bool.and_eq_true, decide_eq_true_eq, Bool.or_eq_true, beq_iff_eq, bne_iff_ne] at hc
    obtain ⟨⟨hk, hw⟩, hr⟩ := hc
    have hturn : (s.l k).phase = .head → total (m s) c.n + 1 ≤ total (m (s.on k .turn)) c.n := fun hp => by
      have hlt := mm_turn (l := s.l k) (by simp [For.St.can, hp])
      exact total_lt (m_on s (by omega)) (m_on_lt s (by omega)) _ hk
    simp only [go]
    unfold act at hw ⊢
    by_cases hkn : k < c.n
    · have hrun : (s.l (k + 1)).g.phase = .running := by
        rcases hr with hr | hr
        · omega
        · exact hr
      have hend : ∀ e, ((∃ v, e = Gen.Ev.ret v) ∨ ∃ x, e = Gen.Ev.throw x) →
          total (m s) c.n + 1 ≤ total (m (s.own k e)) c.n := fun e he => by
        have hcc : (s.l (k + 1)).can (.other e) = true := by
          rcases he with ⟨v, rfl⟩ | ⟨x, rfl⟩ <;> simp [For.St.can, Gen.St.can, hrun]
        have hlt := (h.one (k + 1)).end_counts he hcc
        have hown : s.own k e = s.on (k + 1) (.other e) := by
          rcases he with ⟨v, rfl⟩ | ⟨x, rfl⟩ <;> rfl
        rw [hown]
        exact total_lt (m_on s (Nat.le_of_lt hlt)) (m_on_lt s hlt) _ (by omega)
      rw [if_pos hkn] at hw ⊢
      cases hd : (made (c.f k) (s.l k).seen).drop (s.sent k) with
      | cons v vs =>
        simp only
        have hmo := m_on s (j := k + 1) (mm_other (l := s.l (k + 1)) (e := .yield v) (.inl ⟨_, rfl⟩))
        have e0 : ∀ j, m (s.own k (.yield v)) j =
            m (s.on (k + 1) (.other (.yield v))) j + (if j = k then 1 else 0) := fun j => by
          unfold m
          by_cases hj : j = k
          · subst hj
            simp only [St.own, if_true]
            have : (s.on (j + 1) (.other (.yield v))).sent j = s.sent j := rfl
            rw [this]
            simp only [upd_apply, if_true]
            omega
          · simp only [St.own, hj, if_false, Nat.add_zero]
            have : (s.on (k + 1) (.other (.yield v))).sent j = s.sent j := rfl
            rw [this]
            simp [upd_apply, hj]
        refine total_lt (fun j => ?_) (j := k) ?_ _ hk
        · rw [e0]; exact Nat.le_trans (hmo j) (Nat.le_add_right _ _)
        · rw [e0, if_pos rfl]; have := hmo k; omega
      | nil =>
        rw [hd] at hw
        simp only at hw ⊢
        cases hp : (s.l k).phase with
        | head => simp only; exact hturn hp
        | finished =>
          simp only
          rw [if_pos hkn]
          exact hend _ (.inl ⟨_, rfl⟩)
        | thrown x =>
          simp only
          rw [if_pos hkn]
          exact hend _ (.inr ⟨_, rfl⟩)
        | waiting a => rw [hp] at hw; exact absurd rfl hw
        | broken => rw [hp] at hw; exact absurd rfl hw
        | destroyed => rw [hp] at hw; exact absurd rfl hw
    · rw [if_neg hkn] at hw ⊢
      simp only at hw ⊢
      cases hp : (s.l k).phase with
      | head => exact hturn hp
      | finished => rw [hp] at hw; simp [hkn] at hw
      | thrown x => rw [hp] at hw; simp [hkn] at hw
      | waiting a => rw [hp] at hw; exact absurd rfl hw
      | broken => rw [hp] at hw; exact absurd rfl hw
      | destroyed => rw [hp] at hw; exact absurd rfl hw

/-- How many values the first `k` stages make. -/
def len (c : Cfg) (t : Str) (k : Nat) : Nat := (through c k t).vals.length

theorem Le.length {a b : Str} (h : Le a b) : a.vals.length ≤ b.vals.length := by
  rcases h with rfl | ⟨-, h⟩
  · exact Nat.le_refl _
  · exact h.length_le

theorem CI.bound (h : CI c src p s) (hk : k ≤ c.n) :
    m s k ≤ 2 * len c src k + 5 + (if k < c.n then len c src (k + 1) else 0) := by
  have o := h.one k
  obtain ⟨t, ht, hle⟩ := h.through k hk
  have h1 : t.vals.length ≤ len c src k := hle.length
  have h2 : (p k).outs.length ≤ t.vals.length + 1 := by
    rw [ht.1, List.length_append, List.length_map]
    split <;> simp
  have hs := (sees_le o.li ht o.nb).1
  have h3 : (s.l k).seen.length ≤ t.vals.length := hs.length
  have h4 : s.sent k ≤ if k < c.n then len c src (k + 1) else 0 := by
    split
    · rename_i hkn
      have h5 := o.le hkn
      have h6 := ((hs.trans hle).stage (c.f k) (c.r k)).length
      rw [stage_vals, List.length_append] at h6
      have h7 : len c src (k + 1) = (stage (c.f k) (c.r k) (Chain.through c k src)).vals.length := rfl
      have h8 : (sees (s.l k)).vals = (s.l k).seen := rfl
      rw [h8] at h6
      omega
    · rw [o.le0 (by omega)]; exact Nat.le_refl 0
  have h5 := o.nx
  have h6 := o.rc
  have h7 := o.pt
  have h8 : (s.l k).phase.cost + (if (s.l k).phase = .finished then 1 else 0) ≤ 1 := by
    cases (s.l k).phase <;> simp [For.Phase.cost]
  have h9 : (if (s.l k).g.done = true then 1 else 0) ≤ 1 := by split <;> omega
  unfold m mm
  omega

theorem CI.bounded (h : CI c src p s) : ∀ j, j ≤ c.n →
    total (m s) j ≤ total (fun k => 3 * len c src k + 5) j + (if j < c.n then len c src (j + 1) else 0)
  | 0, hj => by
    have := h.bound hj
    simp only [total]
    omega
  | j + 1, hj => by
    have h1 := h.bounded j (by omega)
    have h2 := h.bound hj
    rw [if_pos (by omega)] at h1
    simp only [total]
    omega

end Cobalt.Gen.Chain
