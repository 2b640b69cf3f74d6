import Verif.Casc.Spec
/-!
# Lemmas about cancellation through chains of awaits
-/
namespace Cobalt.Casc
open Cobalt.Cst (CT Filter)

theorem emit_set_got (s : St) (i : Nat) (f : Coro → Coro) : (s.set i f).got = s.got := rfl
theorem emit_set_ub (s : St) (i : Nat) (f : Coro → Coro) : (s.set i f).ub = s.ub := rfl

/-! ## The invariant -/

structure Inv (s : St) : Prop where
  ub : s.ub = false
  slot : ∀ p, (s.co p).alive = true → (s.co p).slot = (s.co p).waits
  dead : ∀ p, (s.co p).alive = false → (s.co p).waits = none ∧ (s.co p).awaitedFrom = none
  down : ∀ p c, (s.co p).waits = some (.coro c) →
    (s.co c).alive = true ∧ (s.co c).awaitedFrom = some p
  up : ∀ c p, (s.co c).awaitedFrom = some p → (s.co p).waits = some (.coro c)
  fresh : ∀ p, s.next ≤ p → (s.co p).alive = false
  other : ∀ p, (s.co p).waits ≠ some (.coro p)

/-- A step that changes only filters and what was cancelled. -/
def SameChains (s s' : St) : Prop :=
  s'.next = s.next ∧ ∀ p, (s'.co p).alive = (s.co p).alive ∧ (s'.co p).slot = (s.co p).slot ∧
    (s'.co p).waits = (s.co p).waits ∧ (s'.co p).awaitedFrom = (s.co p).awaitedFrom

theorem SameChains.refl (s : St) : SameChains s s := ⟨rfl, fun _ => ⟨rfl, rfl, rfl, rfl⟩⟩

theorem SameChains.trans {s t u : St} (h : SameChains s t) (h' : SameChains t u) :
    SameChains s u := by
  refine ⟨h'.1.trans h.1, fun p => ?_⟩
  obtain ⟨a, b, c, d⟩ := h.2 p
  obtain ⟨a', b', c', d'⟩ := h'.2 p
  exact ⟨a'.trans a, b'.trans b, c'.trans c, d'.trans d⟩

theorem Inv.same {s s' : St} (h : Inv s) (hs : SameChains s s') (hu : s'.ub = false) : Inv s' where
  ub := hu
  slot p ha := by
    obtain ⟨a, b, c, d⟩ := hs.2 p
    rw [b, c]; exact h.slot p (a ▸ ha)
  dead p ha := by
    obtain ⟨a, b, c, d⟩ := hs.2 p
    rw [c, d]; exact h.dead p (a ▸ ha)
  down p q hw := by
    obtain ⟨_, _, c, _⟩ := hs.2 p
    obtain ⟨a, _, _, d⟩ := hs.2 q
    rw [a, d]; exact h.down p q (c ▸ hw)
  up q p hw := by
    obtain ⟨_, _, c, _⟩ := hs.2 p
    obtain ⟨_, _, _, d⟩ := hs.2 q
    rw [c]; exact h.up q p (d ▸ hw)
  fresh p hp := by
    rw [(hs.2 p).1]; exact h.fresh p (hs.1 ▸ hp)
  other p := by
    rw [(hs.2 p).2.2.1]; exact h.other p

theorem setCancelled_same (s : St) (r : Nat) (c : CT) :
    SameChains s (s.set r fun x => { x with cancelled := c }) := by
  refine ⟨rfl, fun p => ?_⟩
  by_cases h : p = r <;> simp [St.set, h]

theorem setCancelled_filters (s : St) (r : Nat) (c : CT) (p : Nat) :
    ((s.set r fun x => { x with cancelled := c }).co p).inF = (s.co p).inF ∧
    ((s.set r fun x => { x with cancelled := c }).co p).outF = (s.co p).outF := by
  by_cases h : p = r <;> simp [St.set, h]

theorem reaches_set {s : St} {r : Nat} {c : CT} {n p k : Nat} {ct o : CT} :
    Reaches (s.set r fun x => { x with cancelled := c }) n p ct k o ↔ Reaches s n p ct k o := by
  constructor <;> intro h <;> induction h with
  | op h hp =>
    refine .op ?_ ?_
    · first
      | rw [← ((setCancelled_same s r c).2 _).2.2.1]; exact h
      | rw [((setCancelled_same s r c).2 _).2.2.1]; exact h
    · unfold Passes at *
      have := setCancelled_filters s r c
      first
      | rw [← (this _).1, ← (this _).2]; exact hp
      | rw [(this _).1, (this _).2]; exact hp
  | coro h hp _ ih =>
    refine .coro ?_ ?_ ih
    · first
      | rw [← ((setCancelled_same s r c).2 _).2.2.1]; exact h
      | rw [((setCancelled_same s r c).2 _).2.2.1]; exact h
    · unfold Passes at *
      have := setCancelled_filters s r c
      first
      | rw [← (this _).1, ← (this _).2]; exact hp
      | rw [(this _).1, (this _).2]; exact hp

/-- What an emission does. -/
theorem emit_spec {s : St} (h : Inv s) (depth r : Nat) (ct : CT) (ha : (s.co r).alive = true) :
    SameChains s (s.emit depth r ct) ∧ (s.emit depth r ct).ub = false ∧
    ((s.emit depth r ct).got = s.got ∨
      ∃ n k o, Reaches s n r ct k o ∧ (s.emit depth r ct).got = s.got ++ [(k, o)]) ∧
    (∀ n k o, Reaches s n r ct k o → n ≤ depth → (s.emit depth r ct).got = s.got ++ [(k, o)]) := by
  induction depth generalizing s r ct with
  | zero =>
    refine ⟨.refl s, h.ub, .inl rfl, fun n k o hr hn => ?_⟩
    cases hr <;> omega
  | succ depth ih =>
    have hsame := setCancelled_same s r ((s.co r).inF ct)
    have hslot := h.slot r ha
    simp only [St.emit, ha, Bool.not_true, Bool.false_eq_true, if_false]
    by_cases ho : (s.co r).outF ((s.co r).inF ct) = .none_
    · rw [if_pos ho]
      refine ⟨hsame, h.ub, .inl rfl, fun n k o hr _ => ?_⟩
      cases hr with
      | op _ hp => exact absurd (hp.1.trans ho) hp.2
      | coro _ hp _ => exact absurd (hp.1.trans ho) hp.2
    · rw [if_neg ho]
      have hpass : Passes (s.co r) ct ((s.co r).outF ((s.co r).inF ct)) := ⟨rfl, ho⟩
      cases hw : (s.co r).waits with
      | none =>
        rw [hw] at hslot
        simp only [hslot]
        refine ⟨hsame, h.ub, .inl (emit_set_got ..), fun n k o hr _ => ?_⟩
        cases hr with
        | op h' _ => rw [hw] at h'; cases h'
        | coro h' _ _ => rw [hw] at h'; cases h'
      | some t =>
        cases t with
        | op k0 =>
          rw [hw] at hslot
          simp only [hslot]
          refine ⟨hsame, h.ub, .inr ⟨1, k0, _, .op hw hpass, rfl⟩, fun n k o hr _ => ?_⟩
          cases hr with
          | op h' hp =>
            rw [hw] at h'; cases h'
            rw [hp.1]
            rfl
          | coro h' _ _ => rw [hw] at h'; cases h'
        | coro c =>
          rw [hw] at hslot
          simp only [hslot]
          have h' : Inv (s.set r fun x => { x with cancelled := (s.co r).inF ct }) :=
            h.same hsame h.ub
          have hc : ((s.set r fun x => { x with cancelled := (s.co r).inF ct }).co c).alive = true := by
            rw [(hsame.2 c).1]; exact (h.down r c hw).1
          obtain ⟨i1, i2, i3, i4⟩ := ih h' c ((s.co r).outF ((s.co r).inF ct)) hc
          refine ⟨hsame.trans i1, i2, ?_, fun n k o hr hn => ?_⟩
          · rcases i3 with i3 | ⟨n, k, o, hr, hg⟩
            · exact .inl i3
            · exact .inr ⟨n + 1, k, o, .coro hw hpass (reaches_set.mp hr), hg⟩
          · cases hr with
            | op h'' _ => rw [hw] at h''; cases h''
            | coro h'' hp hr' =>
              rw [hw] at h''; cases h''
              rw [hp.1] at hr'
              exact i4 _ k o (reaches_set.mpr hr') (by omega)

theorem Inv.init : Inv {} where
  ub := rfl
  slot _ h := by cases h
  dead _ _ := ⟨rfl, rfl⟩
  down _ _ h := by cases h
  up _ _ h := by cases h
  fresh _ _ := rfl
  other _ h := by cases h

/-- The awaiter `p` of `c` is resumed, `c` being alive or not afterwards. -/
theorem Inv.resume {s : St} (h : Inv s) {c : Nat} (b : Bool)
    (hc : b = false → (s.co c).waits = none) (hb : b = true → (s.co c).alive = true) :
    Inv ((s.set c fun x => { x with alive := b, awaitedFrom := none }).resumed
      (s.co c).awaitedFrom) := by
  cases hp : (s.co c).awaitedFrom with
  | none =>
    simp only [St.resumed]
    refine ⟨h.ub, ?_, ?_, ?_, ?_, ?_, ?_⟩
    · intro q hq
      by_cases hqc : q = c
      · subst hqc
        simp only [St.set, if_true] at hq ⊢
        cases b with
        | false => cases hq
        | true => exact h.slot q (hb rfl)
      · simp only [St.set, if_neg hqc] at hq ⊢; exact h.slot q hq
    · intro q hq
      by_cases hqc : q = c
      · subst hqc
        simp only [St.set, if_true] at hq ⊢
        exact ⟨hc hq, trivial⟩
      · simp only [St.set, if_neg hqc] at hq ⊢; exact h.dead q hq
    · intro q d hq
      have hq' : (s.co q).waits = some (.coro d) := by
        by_cases hqc : q = c
        · subst hqc; simpa [St.set] using hq
        · simpa [St.set, hqc] using hq
      have := h.down q d hq'
      by_cases hdc : d = c
      · subst hdc; rw [hp] at this; cases this.2
      · simpa [St.set, hdc] using this
    · intro d q hq
      by_cases hdc : d = c
      · subst hdc; simp [St.set] at hq
      · simp only [St.set, if_neg hdc] at hq
        have := h.up d q hq
        by_cases hqc : q = c
        · subst hqc; simpa [St.set] using this
        · simpa [St.set, hqc] using this
    · intro q hq
      by_cases hqc : q = c
      · subst hqc
        simp only [St.set, if_true]
        cases b with
        | false => rfl
        | true => exact absurd (hb rfl) (by rw [h.fresh q hq]; simp)
      · simpa [St.set, hqc] using h.fresh q hq
    · intro q hq
      by_cases hqc : q = c
      · subst hqc; exact h.other q (by simpa [St.set] using hq)
      · exact h.other q (by simpa [St.set, hqc] using hq)
  | some p =>
    have hwp := h.up c p hp
    have hpc : p ≠ c := fun e => h.other p (by rw [e] at hwp ⊢; exact hwp)
    have hco : ∀ q, ((s.set c fun x => { x with alive := b, awaitedFrom := none }).resumed
        (some p)).co q =
        if q = p then { s.co q with slot := none, waits := none }
        else if q = c then { s.co q with alive := b, awaitedFrom := none } else s.co q := by
      intro q
      by_cases h1 : q = p
      · subst h1; simp [St.resumed, St.set, hpc]
      · simp [St.resumed, St.set, h1]
    refine ⟨h.ub, ?_, ?_, ?_, ?_, ?_, ?_⟩
    · intro q hq
      rw [hco] at hq ⊢
      by_cases h1 : q = p
      · simp [h1]
      · by_cases h2 : q = c
        · subst h2
          simp only [h1, if_true, if_false] at hq ⊢
          exact h.slot q (hb hq)
        · simp only [h1, h2, if_false] at hq ⊢; exact h.slot q hq
    · intro q hq
      rw [hco] at hq ⊢
      by_cases h1 : q = p
      · subst h1
        simp only [if_true] at hq ⊢
        exact ⟨trivial, (h.dead q hq).2⟩
      · by_cases h2 : q = c
        · subst h2
          simp only [h1, if_true, if_false] at hq ⊢
          exact ⟨hc hq, trivial⟩
        · simp only [h1, h2, if_false] at hq ⊢; exact h.dead q hq
    · intro q d hq
      have hqp : q ≠ p := by
        rintro rfl
        rw [hco] at hq; simp at hq
      have hq' : (s.co q).waits = some (.coro d) := by
        rw [hco] at hq
        by_cases h2 : q = c
        · simpa [h2, Ne.symm hpc] using hq
        · simpa [hqp, h2] using hq
      have hd := h.down q d hq'
      have hdc : d ≠ c := by
        rintro rfl
        rw [hp] at hd; exact hqp (Option.some.inj hd.2).symm
      rw [hco]
      by_cases h1 : d = p
      · simpa [h1] using (h1 ▸ hd)
      · simpa [h1, hdc] using hd
    · intro d q hq
      have hdc : d ≠ c := by
        rintro rfl
        rw [hco] at hq; simp [Ne.symm hpc] at hq
      have hq' : (s.co d).awaitedFrom = some q := by
        rw [hco] at hq
        by_cases h1 : d = p
        · simpa [h1] using hq
        · simpa [h1, hdc] using hq
      have hw := h.up d q hq'
      have hqp : q ≠ p := by
        rintro rfl
        rw [hwp] at hw; cases hw; exact hdc rfl
      rw [hco]
      by_cases h2 : q = c
      · simpa [h2, Ne.symm hpc] using (h2 ▸ hw)
      · simpa [hqp, h2] using hw
    · intro q hq
      have hq' := h.fresh q hq
      rw [hco]
      by_cases h1 : q = p
      · simpa [h1] using (h1 ▸ hq')
      · by_cases h2 : q = c
        · subst h2
          simp only [h1, if_true, if_false]
          cases b with
          | false => rfl
          | true => exact absurd (hb rfl) (by rw [hq']; simp)
        · simpa [h1, h2] using hq'
    · intro q hq
      rw [hco] at hq
      by_cases h1 : q = p
      · simp [h1] at hq
      · by_cases h2 : q = c
        · subst h2; exact h.other q (by simpa [h1] using hq)
        · exact h.other q (by simpa [h1, h2] using hq)

/-- A coroutine that does not wait for another changes what it waits for itself. -/
theorem Inv.own {s : St} (h : Inv s) {p : Nat} {f : Coro → Coro}
    (ho : ∀ c, (s.co p).waits ≠ some (.coro c)) (hp : (s.co p).alive = true)
    (h1 : (f (s.co p)).alive = true) (h2 : (f (s.co p)).awaitedFrom = (s.co p).awaitedFrom)
    (h3 : (f (s.co p)).slot = (f (s.co p)).waits)
    (h4 : ∀ c, (f (s.co p)).waits ≠ some (.coro c)) : Inv (s.set p f) := by
  have hco : ∀ q, (s.set p f).co q = if q = p then f (s.co q) else s.co q := fun _ => rfl
  refine ⟨h.ub, ?_, ?_, ?_, ?_, ?_, ?_⟩
  · intro q hq
    rw [hco] at hq ⊢
    by_cases e : q = p
    · subst e; simpa using h3
    · simp only [e, if_false] at hq ⊢; exact h.slot q hq
  · intro q hq
    rw [hco] at hq ⊢
    by_cases e : q = p
    · subst e; simp [h1] at hq
    · simp only [e, if_false] at hq ⊢; exact h.dead q hq
  · intro q d hq
    rw [hco] at hq
    by_cases e : q = p
    · subst e; exact absurd (by simpa using hq) (h4 d)
    · have := h.down q d (by simpa [e] using hq)
      rw [hco]
      by_cases e' : d = p
      · subst e'; simpa [h1, h2] using this.2
      · simpa [e'] using this
  · intro d q hq
    have hq' : (s.co d).awaitedFrom = some q := by
      rw [hco] at hq
      by_cases e' : d = p
      · subst e'; simpa [h2] using hq
      · simpa [e'] using hq
    have hw := h.up d q hq'
    have e : q ≠ p := by rintro rfl; exact ho d hw
    rw [hco]; simpa [e] using hw
  · intro q hq
    have hq' := h.fresh q hq
    rw [hco]
    by_cases e : q = p
    · subst e; rw [hp] at hq'; cases hq'
    · simpa [e] using hq'
  · intro q hq
    rw [hco] at hq
    by_cases e : q = p
    · subst e; exact absurd (by simpa using hq) (h4 q)
    · exact h.other q (by simpa [e] using hq)

theorem Inv.call {s : St} (h : Inv s) (gen : Bool) : Inv (s.step (.call gen)) := by
  have hco : ∀ q, (s.step (.call gen)).co q =
      if q = s.next then { alive := true, gen := gen } else s.co q := fun _ => rfl
  have hf := h.fresh s.next (Nat.le_refl _)
  have hd := h.dead _ hf
  refine ⟨h.ub, ?_, ?_, ?_, ?_, ?_, ?_⟩
  · intro q hq
    rw [hco] at hq ⊢
    by_cases e : q = s.next
    · simp [e]
    · simp only [e, if_false] at hq ⊢; exact h.slot q hq
  · intro q hq
    rw [hco] at hq ⊢
    by_cases e : q = s.next
    · simp [e]
    · simp only [e, if_false] at hq ⊢; exact h.dead q hq
  · intro q d hq
    rw [hco] at hq
    by_cases e : q = s.next
    · simp [e] at hq
    · have := h.down q d (by simpa [e] using hq)
      have e' : d ≠ s.next := by rintro rfl; rw [hf] at this; cases this.1
      rw [hco]; simpa [e'] using this
  · intro d q hq
    rw [hco] at hq
    by_cases e' : d = s.next
    · simp [e'] at hq
    · have := h.up d q (by simpa [e'] using hq)
      have e : q ≠ s.next := by rintro rfl; rw [hd.1] at this; cases this
      rw [hco]; simpa [e] using this
  · intro q hq
    have hq' : s.next + 1 ≤ q := hq
    have e : q ≠ s.next := by omega
    rw [hco]; simpa [e] using h.fresh q (by omega)
  · intro q hq
    rw [hco] at hq
    by_cases e : q = s.next
    · simp [e] at hq
    · exact h.other q (by simpa [e] using hq)

theorem Inv.await {s : St} (h : Inv s) {p c : Nat} (hp : (s.co p).alive = true)
    (hw : (s.co p).waits = none) (hc : (s.co c).alive = true)
    (ha : (s.co c).awaitedFrom = none) (hpc : p ≠ c) :
    Inv ((s.set p fun x => { x with slot := some (.coro c), waits := some (.coro c) }).set c
        fun x => { x with awaitedFrom := some p }) := by
  have hco : ∀ q, ((s.set p fun x =>
      { x with slot := some (.coro c), waits := some (.coro c) }).set c
        fun x => { x with awaitedFrom := some p }).co q =
      if q = p then { s.co q with slot := some (.coro c), waits := some (.coro c) }
      else if q = c then { s.co q with awaitedFrom := some p } else s.co q := by
    intro q
    by_cases h1 : q = p
    · subst h1; simp [St.set, hpc]
    · simp [St.set, h1]
  refine ⟨h.ub, ?_, ?_, ?_, ?_, ?_, ?_⟩
  · intro q hq
    rw [hco] at hq ⊢
    by_cases e : q = p
    · simp [e]
    · by_cases e' : q = c
      · subst e'; simp only [e, if_true, if_false] at hq ⊢; exact h.slot q hq
      · simp only [e, e', if_false] at hq ⊢; exact h.slot q hq
  · intro q hq
    rw [hco] at hq ⊢
    by_cases e : q = p
    · subst e; simp [hp] at hq
    · by_cases e' : q = c
      · subst e'; simp [hc, e] at hq
      · simp only [e, e', if_false] at hq ⊢; exact h.dead q hq
  · intro q d hq
    rw [hco] at hq
    by_cases e : q = p
    · subst e
      have : c = d := by simpa using hq
      subst this
      rw [hco]; simp [Ne.symm hpc, hc]
    · have hq' : (s.co q).waits = some (.coro d) := by
        by_cases e' : q = c
        · subst e'; simpa [e] using hq
        · simpa [e, e'] using hq
      have hd := h.down q d hq'
      have hdc : d ≠ c := by rintro rfl; rw [ha] at hd; cases hd.2
      rw [hco]
      by_cases e' : d = p
      · subst e'; simpa using hd
      · simpa [e', hdc] using hd
  · intro d q hq
    rw [hco] at hq
    by_cases e : d = c
    · subst e
      have : p = q := by simpa [Ne.symm hpc] using hq
      subst this
      rw [hco]; simp
    · have hq' : (s.co d).awaitedFrom = some q := by
        by_cases e' : d = p
        · subst e'; simpa using hq
        · simpa [e, e'] using hq
      have hu := h.up d q hq'
      have hqp : q ≠ p := by rintro rfl; rw [hw] at hu; cases hu
      rw [hco]
      by_cases e' : q = c
      · subst e'; simpa [hqp] using hu
      · simpa [hqp, e'] using hu
  · intro q hq
    have hq' := h.fresh q hq
    have e : q ≠ p := by rintro rfl; rw [hp] at hq'; cases hq'
    have e' : q ≠ c := by rintro rfl; rw [hc] at hq'; cases hq'
    rw [hco]; simpa [e, e'] using hq'
  · intro q hq
    rw [hco] at hq
    by_cases e : q = p
    · subst e; exact hpc (by simpa using hq.symm)
    · by_cases e' : q = c
      · subst e'; exact h.other q (by simpa [e] using hq)
      · exact h.other q (by simpa [e, e'] using hq)

theorem set_alive {s : St} {c : Nat} (_ : Inv s) (ha : (s.co c).alive = true) :
    (s.set c fun x => { x with alive := true, awaitedFrom := none }) =
    s.set c fun x => { x with awaitedFrom := none } := by
  simp only [St.set]
  congr 1
  funext j
  by_cases e : j = c
  · subst e; simp [ha]
  · simp [e]

/-! ## Chains -/

theorem Reaches.chain {s : St} {n r k : Nat} {ct o : CT} (h : Reaches s n r ct k o) :
    Chain s n r k := by
  induction h with
  | op h _ => exact .op h
  | coro h _ _ ih => exact .coro h ih

theorem Chain.unique {s : St} {n m r k k' : Nat} (h : Chain s n r k) (h' : Chain s m r k') :
    n = m ∧ k = k' := by
  induction h generalizing m with
  | op h =>
    cases h' with
    | op h2 => rw [h] at h2; cases h2; exact ⟨rfl, rfl⟩
    | coro h2 _ => rw [h] at h2; cases h2
  | coro h _ ih =>
    cases h' with
    | op h2 => rw [h] at h2; cases h2
    | coro h2 hr =>
      rw [h] at h2; cases h2
      obtain ⟨rfl, rfl⟩ := ih hr
      exact ⟨rfl, rfl⟩

theorem chain_set {s : St} {r : Nat} {c : CT} {n p k : Nat} :
    Chain (s.set r fun x => { x with cancelled := c }) n p k ↔ Chain s n p k := by
  have hw := fun q => ((setCancelled_same s r c).2 q).2.2.1
  constructor <;> intro h <;> induction h with
  | op h => exact .op (by first | rw [← hw]; exact h | rw [hw]; exact h)
  | coro h _ ih => exact .coro (by first | rw [← hw]; exact h | rw [hw]; exact h) ih

theorem through_set {s : St} {r : Nat} {c : CT} {n p q : Nat} {ct ct' : CT}
    (h : Through s n p ct q ct') :
    Through (s.set r fun x => { x with cancelled := c }) n p ct q ct' := by
  have hw := fun q => ((setCancelled_same s r c).2 q).2.2.1
  have hf := setCancelled_filters s r c
  induction h with
  | here => exact .here
  | next h hp _ ih =>
    refine .next (by rw [hw]; exact h) ?_ ih
    unfold Passes at *
    rw [(hf _).1, (hf _).2]; exact hp

theorem through_unset {s : St} {r : Nat} {c : CT} {n p q : Nat} {ct ct' : CT}
    (h : Through (s.set r fun x => { x with cancelled := c }) n p ct q ct') :
    Through s n p ct q ct' := by
  have hw := fun q => ((setCancelled_same s r c).2 q).2.2.1
  have hf := setCancelled_filters s r c
  induction h with
  | here => exact .here
  | next h hp _ ih =>
    refine .next (by rw [← hw]; exact h) ?_ ih
    unfold Passes at *
    rw [← (hf _).1, ← (hf _).2]; exact hp

/-- Only those on the chain are told. -/
theorem emit_others {s : St} (h : Inv s) {n r k : Nat} {ct : CT} (hch : Chain s n r k)
    (depth : Nat) {q : Nat} (hq : ∀ m, Chain s m q k → n < m) :
    ((s.emit depth r ct).co q).cancelled = (s.co q).cancelled := by
  induction depth generalizing s n r ct with
  | zero => rfl
  | succ depth ih =>
    have hqr : q ≠ r := by
      rintro rfl
      exact absurd (hq n hch) (Nat.lt_irrefl n)
    have hset : ∀ c, ((s.set r fun x => { x with cancelled := c }).co q).cancelled =
        (s.co q).cancelled := by
      intro c; simp [St.set, hqr]
    have ha : (s.co r).alive = true := by
      cases ha : (s.co r).alive with
      | true => rfl
      | false =>
        have := (h.dead r ha).1
        cases hch with
        | op hw => rw [this] at hw; cases hw
        | coro hw _ => rw [this] at hw; cases hw
    have hslot := h.slot r ha
    simp only [St.emit, ha, Bool.not_true, Bool.false_eq_true, if_false]
    split
    · exact hset _
    · cases hch with
      | op hw =>
        rw [hw] at hslot
        simp only [hslot]
        exact hset _
      | coro hw hr =>
        rw [hw] at hslot
        simp only [hslot]
        rw [ih (h.same (setCancelled_same ..) h.ub) (chain_set.mpr hr)
          (fun m hm => by have := hq m (chain_set.mp hm); omega)]
        exact hset _

/-- All on the chain are told. -/
theorem emit_through {s : St} (h : Inv s) {n r k : Nat} {ct o : CT} (hr : Reaches s n r ct k o)
    (depth : Nat) (hn : n ≤ depth) {m q : Nat} {ct' : CT} (ht : Through s m r ct q ct') :
    ((s.emit depth r ct).co q).cancelled = (s.co q).inF ct' := by
  induction depth generalizing s n m r ct with
  | zero => cases hr <;> omega
  | succ depth ih =>
    have hself : ((s.set r fun x => { x with cancelled := (s.co r).inF ct }).co r).cancelled =
        (s.co r).inF ct := by simp [St.set]
    have hch := hr.chain
    have ha : (s.co r).alive = true := by
      cases ha : (s.co r).alive with
      | true => rfl
      | false =>
        have := (h.dead r ha).1
        cases hch with
        | op hw => rw [this] at hw; cases hw
        | coro hw _ => rw [this] at hw; cases hw
    have hslot := h.slot r ha
    simp only [St.emit, ha, Bool.not_true, Bool.false_eq_true, if_false]
    cases hr with
    | op hw hp =>
      have ho : (s.co r).outF ((s.co r).inF ct) ≠ .none_ := by rw [← hp.1]; exact hp.2
      rw [if_neg ho]
      rw [hw] at hslot
      simp only [hslot]
      cases ht with
      | here => exact hself
      | next hw' _ _ => rw [hw] at hw'; cases hw'
    | coro hw hp hr =>
      have ho : (s.co r).outF ((s.co r).inF ct) ≠ .none_ := by rw [← hp.1]; exact hp.2
      rw [if_neg ho]
      rw [hw] at hslot
      simp only [hslot]
      have h' := h.same (setCancelled_same s r ((s.co r).inF ct)) h.ub
      rw [hp.1] at hr
      cases ht with
      | here =>
        rw [emit_others h' (chain_set.mpr hr.chain) depth
          (fun m hm => by have := (chain_set.mp hm).unique hch; omega)]
        exact hself
      | next hw' hp' ht =>
        rw [hw] at hw'; cases hw'
        rw [hp'.1] at ht
        rw [ih h' (reaches_set.mpr hr) (by omega) (through_set ht),
          (setCancelled_filters ..).1]

theorem Chain.alive {s : St} (h : Inv s) {n r k : Nat} (hch : Chain s n r k) :
    (s.co r).alive = true := by
  cases ha : (s.co r).alive with
  | true => rfl
  | false =>
    have := (h.dead r ha).1
    cases hch with
    | op hw => rw [this] at hw; cases hw
    | coro hw _ => rw [this] at hw; cases hw

/-! ## Steps -/

/-- A cancellation that does not arrive at `c` can as well be done before `c` is destroyed. -/
theorem kill_emit {s : St} {c : Nat} (hlive : (s.co c).alive = true) (depth r : Nat) (ct : CT)
    (h : Inv s) (hr : (s.co r).alive = true)
    (ht : ∀ n ct', n < depth → ¬ Through s n r ct c ct') :
    (s.kill c).emit depth r ct = (s.emit depth r ct).kill c := by
  induction depth generalizing s r ct with
  | zero => rfl
  | succ depth ih =>
    have hrc : r ≠ c := by
      rintro rfl
      exact ht 0 ct (by omega) .here
    have hco : (s.kill c).co r = s.co r := by simp [St.kill, St.set, hrc]
    have hslot := h.slot r hr
    have hcomm : (s.kill c).set r (fun x => { x with cancelled := (s.co r).inF ct }) =
        (s.set r fun x => { x with cancelled := (s.co r).inF ct }).kill c := by
      simp only [St.kill, St.set]
      congr 1
      funext j
      by_cases e : j = r
      · subst e; simp [hrc]
      · simp [e]
    simp only [St.emit, hco, hr, Bool.not_true, Bool.false_eq_true, if_false]
    rw [hcomm]
    by_cases ho : (s.co r).outF ((s.co r).inF ct) = .none_
    · simp only [ho, if_true]
    · simp only [ho, if_false]
      cases hw : (s.co r).waits with
      | none => rw [hw] at hslot; simp only [hslot]
      | some t =>
        rw [hw] at hslot
        cases t with
        | op k => simp only [hslot]; rfl
        | coro d =>
          simp only [hslot]
          have hs := setCancelled_same s r ((s.co r).inF ct)
          refine ih ?_ d _ (h.same hs h.ub) ?_ fun n ct' hn hth => ?_
          · rw [(hs.2 c).1]; exact hlive
          · rw [(hs.2 d).1]; exact (h.down r d hw).1
          · exact ht (n + 1) ct' (by omega) (.next hw ⟨rfl, ho⟩ (through_unset hth))

/-- If it does arrive, the signal is used. -/
theorem kill_emit_ub {s : St} {c : Nat} {n depth r : Nat} {ct ct' : CT} (h : Inv s)
    (hr : (s.co r).alive = true) (hn : n < depth) (ht : Through s n r ct c ct')
    (hfirst : ∀ m ct'', m < n → ¬ Through s m r ct c ct'') :
    ((s.kill c).emit depth r ct).ub = true := by
  induction depth generalizing s n r ct with
  | zero => omega
  | succ depth ih =>
    cases ht with
    | here => simp [St.emit, St.kill, St.set]
    | next hw hp ht =>
      rename_i n d o
      have hrc : r ≠ c := by
        rintro rfl
        exact hfirst 0 ct (by omega) .here
      have hco : (s.kill c).co r = s.co r := by simp [St.kill, St.set, hrc]
      have hslot := h.slot r hr
      have hcomm : (s.kill c).set r (fun x => { x with cancelled := (s.co r).inF ct }) =
          (s.set r fun x => { x with cancelled := (s.co r).inF ct }).kill c := by
        simp only [St.kill, St.set]
        congr 1
        funext j
        by_cases e : j = r
        · subst e; simp [hrc]
        · simp [e]
      have ho : (s.co r).outF ((s.co r).inF ct) ≠ .none_ := by rw [← hp.1]; exact hp.2
      rw [hw] at hslot
      simp only [St.emit, hco, hr, Bool.not_true, Bool.false_eq_true, if_false, ho, hslot]
      rw [hcomm]
      have hs := setCancelled_same s r ((s.co r).inF ct)
      rw [hp.1] at ht
      refine ih (n := n) (h.same hs h.ub) ?_ (by omega) (through_set ht) fun m ct'' hm hth => ?_
      · rw [(hs.2 d).1]; exact (h.down r d hw).1
      · exact hfirst (m + 1) ct'' (by omega) (.next hw ⟨rfl, ho⟩ (through_unset hth))

theorem Inv.cancelled {s : St} (h : Inv s) (d : Option (Nat × CT × Nat)) : Inv (s.dtor d) := by
  cases d with
  | none => exact h
  | some d =>
    obtain ⟨r, ct, depth⟩ := d
    simp only [St.dtor]
    split
    · rename_i ha
      obtain ⟨h1, h2, _⟩ := emit_spec h depth r ct ha
      exact h.same h1 h2
    · exact h

theorem dtor_same {s : St} (h : Inv s) (d : Option (Nat × CT × Nat)) : SameChains s (s.dtor d) := by
  cases d with
  | none => exact .refl s
  | some d =>
    obtain ⟨r, ct, depth⟩ := d
    simp only [St.dtor]
    split
    · rename_i ha; exact (emit_spec h depth r ct ha).1
    · exact .refl s

/-- What a destructor must not do. -/
def Fine (s : St) : Ev → Prop
  | .ret c (some (r, ct, depth)) => ∀ n ct', n < depth → 0 < n → ¬ Through s n r ct c ct'
  | _ => True

theorem kill_dtor {s : St} (h : Inv s) {c : Nat} (hc : (s.co c).alive = true)
    {d : Option (Nat × CT × Nat)} (hf : Fine s (.ret c d)) :
    ∃ d', (s.kill c).dtor d = (s.dtor d').kill c := by
  cases d with
  | none => exact ⟨none, rfl⟩
  | some d =>
    obtain ⟨r, ct, depth⟩ := d
    by_cases hrc : r = c
    · subst hrc
      refine ⟨none, ?_⟩
      simp [St.dtor, St.kill, St.set]
    · refine ⟨some (r, ct, depth), ?_⟩
      have hco : (s.kill c).co r = s.co r := by simp [St.kill, St.set, hrc]
      simp only [St.dtor, hco]
      by_cases ha : (s.co r).alive = true
      · simp only [ha, if_true]
        refine kill_emit hc depth r ct h ha fun n ct' hn hth => ?_
        refine hf n ct' hn ?_ hth
        cases hth with
        | here => exact absurd rfl hrc
        | next => omega
      · simp [ha]

/-- When the signal of a coroutine that ends is used. -/
theorem ret_ub {s : St} (h : Inv s) (c r : Nat) (ct : CT) (depth : Nat) :
    (s.step (.ret c (some (r, ct, depth)))).ub = true ↔
      s.runs c = true ∧ (s.co r).alive = true ∧
        ∃ n ct', n < depth ∧ 0 < n ∧ Through s n r ct c ct' := by
  have hres : ∀ (s : St) (p : Option Nat), (s.resumed p).ub = s.ub := by
    intro s p; cases p <;> rfl
  have hfine : (∀ n ct', n < depth → 0 < n → ¬ Through s n r ct c ct') →
      (s.step (.ret c (some (r, ct, depth)))).ub = false := by
    intro hf
    simp only [St.step]
    split
    · rename_i hg
      simp only [St.runs, Bool.and_eq_true, Option.isNone_iff_eq_none] at hg
      obtain ⟨d', hd⟩ := kill_dtor (d := some (r, ct, depth)) h hg.1 hf
      rw [hres, hd]
      exact (h.cancelled d').ub
    · exact h.ub
  constructor
  · intro hu
    refine ⟨?_, ?_, ?_⟩
    · cases hr : s.runs c with
      | true => rfl
      | false => simp [St.step, hr, h.ub] at hu
    · cases ha : (s.co r).alive with
      | true => rfl
      | false =>
        simp only [St.step] at hu
        split at hu
        · rw [hres] at hu
          have : ((s.kill c).co r).alive = false := by
            by_cases e : r = c <;> simp [St.kill, St.set, e, ha]
          simp only [St.dtor, this, Bool.false_eq_true, if_false] at hu
          exact absurd hu (by rw [show (s.kill c).ub = s.ub from rfl, h.ub]; simp)
        · rw [h.ub] at hu; cases hu
    · refine Classical.byContradiction fun hne => ?_
      rw [hfine fun n ct' hn h0 ht => hne ⟨n, ct', hn, h0, ht⟩] at hu
      cases hu
  · rintro ⟨hr, ha, n, ct', hn, h0, ht⟩
    have hg := hr
    simp only [St.runs, Bool.and_eq_true, Option.isNone_iff_eq_none] at hg
    simp only [St.step, hr, if_true]
    rw [hres]
    have hrc : r ≠ c := by
      rintro rfl
      cases ht with
      | here => omega
      | next hw _ _ => rw [hg.2] at hw; cases hw
    have hco : (s.kill c).co r = s.co r := by simp [St.kill, St.set, hrc]
    simp only [St.dtor, hco, ha, if_true]
    obtain ⟨m, ct'', hm, ht', hmin⟩ : ∃ m ct'', m < depth ∧ Through s m r ct c ct'' ∧
        ∀ l ct3, l < m → ¬ Through s l r ct c ct3 := by
      clear hco hrc hg h0
      induction n using Nat.strongRecOn generalizing ct' with
      | _ n ih =>
        by_cases hl : ∃ l ct3, l < n ∧ Through s l r ct c ct3
        · obtain ⟨l, ct3, hln, hth⟩ := hl
          exact ih l hln ct3 (by omega) hth
        · exact ⟨n, ct', hn, ht, fun l ct3 hln hth => hl ⟨l, ct3, hln, hth⟩⟩
    exact kill_emit_ub h ha hm ht' hmin

theorem Inv.step {s : St} (h : Inv s) (e : Ev) (hf : Fine s e) : Inv (s.step e) := by
  cases e with
  | call gen => exact h.call gen
  | await p c =>
    simp only [St.step]
    split
    · rename_i hg
      simp only [St.runs, Bool.and_eq_true, Option.isNone_iff_eq_none, decide_eq_true_eq] at hg
      exact h.await hg.1.1.1.1 hg.1.1.1.2 hg.1.1.2 hg.1.2 hg.2
    · exact h
  | awaitOp p k =>
    simp only [St.step]
    split
    · rename_i hg
      simp only [St.runs, Bool.and_eq_true, Option.isNone_iff_eq_none] at hg
      exact h.own (fun c hc => by rw [hg.2] at hc; cases hc) hg.1 hg.1 rfl rfl
        (fun c hc => by cases hc)
    · exact h
  | opEnds p =>
    simp only [St.step]
    split
    · rename_i k hw
      have hp : (s.co p).alive = true := by
        cases ha : (s.co p).alive with
        | true => rfl
        | false => rw [(h.dead p ha).1] at hw; cases hw
      exact h.own (f := fun x => { x with slot := none, waits := none })
        (fun c hc => by rw [hw] at hc; cases hc) hp hp rfl rfl (fun c hc => by cases hc)
    · exact h
  | ret c d =>
    simp only [St.step]
    split
    · rename_i hg
      simp only [St.runs, Bool.and_eq_true, Option.isNone_iff_eq_none] at hg
      obtain ⟨d', hd⟩ := kill_dtor h hg.1 hf
      have hs := dtor_same h d'
      rw [hd, ← (hs.2 c).2.2.2]
      exact (h.cancelled d').resume false (fun _ => by rw [(hs.2 c).2.2.1]; exact hg.2)
        (fun hb => by cases hb)
    · exact h
  | yield c =>
    simp only [St.step]
    split
    · rename_i hg
      simp only [St.runs, Bool.and_eq_true, Option.isNone_iff_eq_none] at hg
      have := h.resume (c := c) true (fun hb => by cases hb) (fun _ => hg.1.1)
      rwa [set_alive h hg.1.1] at this
    · exact h
  | interrupt p =>
    simp only [St.step]
    split
    · rename_i c hw
      obtain ⟨ha, hf⟩ := h.down p c hw
      have := h.resume (c := c) true (fun hb => by cases hb) (fun _ => ha)
      rwa [set_alive h ha, hf] at this
    · exact h
  | reset p i o =>
    simp only [St.step]
    split
    · rename_i hg
      simp only [St.runs, Bool.and_eq_true, Option.isNone_iff_eq_none] at hg
      exact h.own (fun c hc => by rw [hg.2] at hc; cases hc) hg.1 hg.1 rfl hg.2.symm
        (fun c hc => by rw [hg.2] at hc; cases hc)
    · exact h
  | cancel r ct depth => exact h.cancelled (some (r, ct, depth))

theorem Inv.run {s : St} (h : Inv s) (es : List Ev)
    (hf : ∀ a e b, es = a ++ e :: b → Fine (s.run a) e) : Inv (s.run es) := by
  induction es generalizing s with
  | nil => exact h
  | cons e es ih =>
    exact ih (h.step e (hf [] e es rfl)) fun a e' b he => hf (e :: a) e' b (by rw [he]; rfl)

theorem Safe.inv {es : List Ev} (h : Safe es) : Inv (({} : St).run es) := by
  refine Inv.init.run es fun a e b he => ?_
  cases e with
  | ret c d =>
    cases d with
    | none => trivial
    | some d => obtain ⟨r, ct, depth⟩ := d; exact h a b c r ct depth he
  | _ => trivial

/-! ## Filters -/

/-- No coroutine has changed its filters. -/
def Plain (s : St) : Prop :=
  ∀ p, (s.co p).inF = Cst.enableTotal ∧ (s.co p).outF = Cst.enableTotal

theorem Plain.set {s : St} (h : Plain s) {i : Nat} {f : Coro → Coro}
    (hf : ∀ x, (f x).inF = x.inF ∧ (f x).outF = x.outF) : Plain (s.set i f) := by
  intro p
  by_cases e : p = i
  · simpa [St.set, e, hf] using h i
  · simpa [St.set, e] using h p

theorem Plain.resumed {s : St} (h : Plain s) (p : Option Nat) : Plain (s.resumed p) := by
  cases p with
  | none => exact h
  | some p =>
    simp only [St.resumed]
    refine h.set ?_
    exact fun _ => ⟨rfl, rfl⟩

theorem Plain.emit {s : St} (h : Plain s) (depth r : Nat) (ct : CT) :
    Plain (s.emit depth r ct) := by
  induction depth generalizing s r ct with
  | zero => exact h
  | succ depth ih =>
    have h' : Plain (s.set r fun x => { x with cancelled := (s.co r).inF ct }) :=
      h.set fun _ => ⟨rfl, rfl⟩
    simp only [St.emit]
    split
    · exact h
    · split
      · exact h'
      · split
        · exact h'
        · exact h'
        · exact ih h' _ _

theorem Plain.dtor {s : St} (h : Plain s) (d : Option (Nat × CT × Nat)) : Plain (s.dtor d) := by
  cases d with
  | none => exact h
  | some d =>
    simp only [St.dtor]
    split
    · exact h.emit _ _ _
    · exact h

theorem Plain.step {s : St} (h : Plain s) {e : Ev} (he : ∀ p i o, e ≠ .reset p i o) :
    Plain (s.step e) := by
  cases e with
  | call gen =>
    intro p
    by_cases e : p = s.next
    · simp [St.step, e]
    · simpa [St.step, e] using h p
  | await p c =>
    simp only [St.step]
    split
    · refine Plain.set (Plain.set h ?_) ?_ <;> exact fun _ => ⟨rfl, rfl⟩
    · exact h
  | awaitOp p k =>
    simp only [St.step]
    split
    · refine Plain.set h ?_
      exact fun _ => ⟨rfl, rfl⟩
    · exact h
  | opEnds p =>
    simp only [St.step]
    split
    · exact h.resumed _
    · exact h
  | ret c d =>
    simp only [St.step]
    split
    · refine Plain.resumed (Plain.dtor (Plain.set h ?_) d) _
      exact fun _ => ⟨rfl, rfl⟩
    · exact h
  | yield c =>
    simp only [St.step]
    split
    · refine Plain.resumed (Plain.set h ?_) _
      exact fun _ => ⟨rfl, rfl⟩
    · exact h
  | interrupt p =>
    simp only [St.step]
    split
    · refine Plain.resumed (Plain.set h ?_) _
      exact fun _ => ⟨rfl, rfl⟩
    · exact h
  | reset p i o => exact absurd rfl (he p i o)
  | cancel r ct depth => exact h.dtor (some (r, ct, depth))

theorem Plain.run {s : St} (h : Plain s) {es : List Ev} (he : ∀ e ∈ es, ∀ p i o, e ≠ .reset p i o) :
    Plain (s.run es) := by
  induction es generalizing s with
  | nil => exact h
  | cons e es ih =>
    exact ih (h.step (he e (by simp))) fun e' h' => he e' (by simp [h'])

theorem Plain.reaches {s : St} (h : Plain s) {n r k : Nat} (hc : Chain s n r k) {ct : CT}
    (hct : ct ≠ .none_) : Reaches s n r ct k ct := by
  induction hc with
  | op hw => exact .op hw ⟨by rw [(h _).1, (h _).2]; rfl, hct⟩
  | coro hw _ ih => exact .coro hw ⟨by rw [(h _).1, (h _).2]; rfl, hct⟩ ih

end Cobalt.Casc
