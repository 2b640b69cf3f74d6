import Verif.Gen.ChainRun
/-! How far a source is ahead of the last loop. -/
namespace Cobalt.Gen.Chain

open Prom (upd upd_apply)

def isVal : Got → Bool
  | .val _ => true
  | _ => false

/-- How many values the body of a generator gave. -/
def nv (p : Sp) : Nat := p.outs.countP isVal

theorem count_vals (l : List Nat) : (l.map Got.val).countP isVal = l.length := by
  induction l with
  | nil => rfl
  | cons v l ih => rw [List.map_cons, List.countP_cons_of_pos rfl, ih]; rfl

theorem Is.nv {p : Sp} {t : Str} (h : Is p t) : nv p = t.vals.length := by
  unfold Chain.nv
  rw [h.1, List.countP_append, count_vals]
  split <;> simp [isVal]

variable {c : Cfg} {s : St} {p : Nat → Sp} {src : Str} {k : Nat}

/-- What the loop has not got yet is in the receiver. -/
theorem One.nv (o : One c s p k) : nv (p k) = (s.l k).seen.length + (if (s.l k).g.result = none then 0 else 1) := by
  obtain ⟨u, hi⟩ := o.li.inv
  have h1 := hi.outs o.recv
  rw [o.li.log, List.filter_append, For.filter_vals] at h1
  have h1 : (p k).outs = _ := h1
  unfold Chain.nv
  rw [h1, List.countP_append, List.countP_append, count_vals]
  have h2 : List.countP isVal (List.filter ofBody (s.l k).phase.err) = 0 := by
    cases (s.l k).phase with
    | thrown e => cases e <;> rfl
    | _ => rfl
  have h3 : List.countP isVal (pend (s.l k).g) = if (s.l k).g.result = none then 0 else 1 := by
    simp only [pend, o.li.buf, optVal, List.append_nil, List.countP_append]
    have : List.countP isVal (optErr (s.l k).g.exc) = 0 := by
      cases (s.l k).g.exc <;> rfl
    rw [this]
    cases (s.l k).g.result <;> rfl
  rw [h2, h3]; rfl

theorem One.ran (o : One c s p k) (hr : (s.l k).g.phase = .running) : Chain.nv (p k) = (s.l k).seen.length := by
  rw [o.nv, o.li.runR o.recv hr]; simp

theorem proper (h : CI c src p s) (hk : k ≤ c.n) : Proper (s.l k).phase := by
  obtain ⟨t, ht⟩ := h.str k hk
  exact (sees_le (h.one k).li ht (h.one k).nb).2

/-- A lazy generator keeps nothing. -/
theorem CI.lazy (h : CI c src p s) (hk : k ≤ c.n) (hz : c.lz k = true) : Chain.nv (p k) = (s.l k).seen.length := by
  have o := h.one k
  have hz' : (s.l k).g.lazy = true := o.lz.trans hz
  obtain ⟨u, hi⟩ := o.li.inv
  cases hp : (s.l k).phase with
  | head => rw [o.nv, ((o.li.head hp).2 hz').2]; simp
  | waiting a =>
    rw [o.nv]
    have ha := o.li.waiting a hp
    have : (s.l k).g.result = none := by
      apply Classical.byContradiction
      intro hx
      exact hx (o.li.runR o.recv (hi.waitsN (by simp [ha]) hx).2.2)
    simp [this]
  | finished =>
    unfold Chain.nv
    rw [(o.li.finished hp).2.1, count_vals]
  | thrown e =>
    rcases o.li.thrown e hp with ⟨-, hx⟩ | ⟨-, hx, -⟩
    · cases hx
    · unfold Chain.nv
      rw [hx, List.countP_append, count_vals]; rfl
  | broken => exact absurd hp o.nb
  | destroyed => have := proper h hk; rw [hp] at this; exact this.elim

theorem CI.sent (h : CI c src p s) (hk : k < c.n) : s.sent k ≤ Chain.nv (p (k + 1)) := by
  have L := h.link k hk
  have o := h.one k
  unfold Chain.nv
  cases he : (p (k + 1)).ended with
  | false =>
    rw [L.going he, count_vals, List.length_take]
    have := o.le hk
    omega
  | true =>
    obtain ⟨h1, h2⟩ := L.over he
    rcases h2 with ⟨-, ho⟩ | ⟨x, -, ho⟩ <;>
    · rw [ho, List.countP_append, count_vals]
      omega

/-- A body with a value of which it has yielded nothing yet runs. -/
theorem CI.owes (h : CI c src p s) (hk : k < c.n) (hd : s.sent k ≤ (made (c.f k) (s.l k).seen.dropLast).length)
    (hx : s.sent k < (made (c.f k) (s.l k).seen).length) :
    (s.l (k + 1)).g.phase = .running := by
  have L := h.link k hk
  rcases L.runs (.inr ⟨hd, hx⟩) with h1 | h1
  · exact h1
  · have := (L.over h1).1
    omega

/-- If a stage yields something for every value it yields as many at least. -/
theorem made_length {f : List Nat → Nat → List Nat} (hf : ∀ p v, 1 ≤ (f p v).length) (l : List Nat) :
    l.length ≤ (made f l).length := by
  have key : ∀ (l p : List Nat), l.length ≤ (madeFrom f p l).length := by
    intro l
    induction l with
    | nil => intro p; exact Nat.le_refl _
    | cons v l ih =>
      intro p
      have := ih (p ++ [v])
      have := hf p v
      rw [madeFrom, List.length_append, List.length_cons]
      omega
  exact key l []

/-- How many generators from `k` on are eager, and one for the last if it is not. -/
def slack (c : Cfg) (k : Nat) : Nat → Nat
  | 0 => 1
  | d + 1 => slack c (k + 1) d + (if c.lz k then 0 else 1)

theorem CI.slack (h : CI c src p s) (hf : ∀ k, k < c.n → ∀ p v, 1 ≤ (c.f k p v).length) : ∀ d k, k + d = c.n →
    Chain.nv (p k) ≤ (s.l c.n).seen.length + Chain.slack c k d ∧
    ((s.l k).g.phase = .running → Chain.nv (p k) + 1 ≤ (s.l c.n).seen.length + Chain.slack c k d) := by
  intro d
  induction d with
  | zero =>
    intro k hk
    have hk : k = c.n := by omega
    subst hk
    have o := h.one c.n
    refine ⟨?_, fun hr => ?_⟩
    · rw [o.nv]; simp only [Chain.slack]; split <;> omega
    · rw [o.ran hr]; simp [Chain.slack]
  | succ d ih =>
    intro k hk
    obtain ⟨i1, i2⟩ := ih (k + 1) (by omega)
    have hk' : k < c.n := by omega
    have o := h.one k
    have hs := h.sent hk'
    have hle1 := o.le1 hk'
    have hle := o.le hk'
    have m1 := made_length (hf k hk') (s.l k).seen
    have m2 := made_length (hf k hk') (s.l k).seen.dropLast
    rw [List.length_dropLast] at m2
    have hD : (s.l k).seen.length ≤ (s.l c.n).seen.length + Chain.slack c (k + 1) d := by
      by_cases hx : s.sent k < (made (c.f k) (s.l k).seen).length
      · by_cases hy : s.sent k ≤ (made (c.f k) (s.l k).seen.dropLast).length
        · have := i2 (h.owes hk' hy hx)
          omega
        · omega
      · omega
    simp only [Chain.slack]
    cases hz : c.lz k with
    | false =>
      simp only [Bool.false_eq_true, if_false]
      refine ⟨?_, fun hr => ?_⟩
      · rw [o.nv]; split <;> omega
      · rw [o.ran hr]; omega
    | true =>
      simp only [if_true, Nat.add_zero]
      have hl := h.lazy (by omega) hz
      refine ⟨by omega, fun hr => ?_⟩
      have hz' : (s.l k).g.lazy = true := o.lz.trans hz
      have hw : ∃ a, (s.l k).phase = .waiting a := by
        have hpr := proper h (show k ≤ c.n by omega)
        have hal := (o.alive hr).1
        cases hp : (s.l k).phase with
        | waiting a => exact ⟨a, rfl⟩
        | head => exact absurd hr ((o.li.head hp).2 hz').1
        | finished => have := (o.li.finished hp).1; rw [hal] at this; cases this
        | thrown e =>
          rcases o.li.thrown e hp with ⟨-, hx⟩ | ⟨hx, -⟩
          · cases hx
          · rw [hal] at hx; cases hx
        | broken => exact absurd hp o.nb
        | destroyed => rw [hp] at hpr; exact hpr.elim
      obtain ⟨a, ha⟩ := hw
      have hsent : ¬s.sent k < (made (c.f k) (s.l k).seen).length := fun hx => by
        have := o.wt hk' hx
        rw [ha] at this; cases this
      have hrun : (s.l (k + 1)).g.phase = .running := by
        rcases (h.link k hk').runs (.inl (by simp [ha])) with h1 | h1
        · exact h1
        · rcases ((h.link k hk').over h1).2 with ⟨hx, -⟩ | ⟨x, hx, -⟩ <;> (rw [ha] at hx; cases hx)
      have := i2 hrun
      omega

end Cobalt.Gen.Chain
