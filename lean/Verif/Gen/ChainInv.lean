import Verif.Gen.ChainLemmas
/-! The invariant of a chain of generators. -/
namespace Cobalt.Gen.Chain

open Prom (upd upd_apply)

theorem madeFrom_snoc (f : List Nat → Nat → List Nat) (v : Nat) : ∀ (l p : List Nat),
    madeFrom f p (l ++ [v]) = madeFrom f p l ++ f (p ++ l) v
  | [], p => by simp [madeFrom]
  | w :: l, p => by
    rw [List.cons_append, madeFrom, madeFrom_snoc f v l, madeFrom]
    simp

theorem made_snoc (f : List Nat → Nat → List Nat) (l : List Nat) (v : Nat) : made f (l ++ [v]) = made f l ++ f l v := by
  unfold made
  rw [madeFrom_snoc]
  rfl

/-- What the body of a generator has done, as a stream. -/
def Is (p : Sp) (t : Str) : Prop :=
  p.outs = t.vals.map Got.val ++ (match t.fin with | some (some x) => [.err (.user x)] | _ => []) ∧ p.ended = t.fin.isSome

/-- The part of one generator and its loop. -/
structure One (c : Cfg) (s : St) (p : Nat → Sp) (k : Nat) : Prop where
  li : For.LI false (p k) (s.l k)
  recv : (s.l k).g.recv = true
  nb : (s.l k).phase ≠ .broken
  lz : (s.l k).g.lazy = c.lz k
  le : k < c.n → s.sent k ≤ (made (c.f k) (s.l k).seen).length
  le0 : c.n ≤ k → s.sent k = 0
  le1 : k < c.n → (made (c.f k) (s.l k).seen.dropLast).length ≤ s.sent k
  nx : (s.l k).next ≤ (s.l k).seen.length + (s.l k).phase.cost
  rc : (s.l k).g.received.length ≤ (p k).points
  pt : (p k).points ≤ (p k).outs.length + 1
  /-- before its next turn a body yields what it has -/
  wt : k < c.n → s.sent k < (made (c.f k) (s.l k).seen).length → (s.l k).phase = .head

/-- The part of the body with the loop over generator `k`. -/
structure Link (c : Cfg) (s : St) (p : Nat → Sp) (k : Nat) : Prop where
  going : (p (k + 1)).ended = false → (p (k + 1)).outs = ((made (c.f k) (s.l k).seen).take (s.sent k)).map .val
  over : (p (k + 1)).ended = true → s.sent k = (made (c.f k) (s.l k).seen).length ∧
    ((s.l k).phase = .finished ∧ (p (k + 1)).outs = (made (c.f k) (s.l k).seen).map .val ++ [.val (c.r k (s.l k).seen)] ∨
      ∃ x, (s.l k).phase = .thrown (.user x) ∧ (p (k + 1)).outs = (made (c.f k) (s.l k).seen).map .val ++ [.err (.user x)])
  /-- a body that waits, or has got a value of which it has not yielded anything yet -/
  runs : (s.l k).phase ≠ .head ∨ s.sent k ≤ (made (c.f k) (s.l k).seen.dropLast).length ∧ s.sent k < (made (c.f k) (s.l k).seen).length →
    (s.l (k + 1)).g.phase = .running ∨ (p (k + 1)).ended = true

structure CI (c : Cfg) (src : Str) (p : Nat → Sp) (s : St) : Prop where
  one : ∀ k, One c s p k
  link : ∀ k, k < c.n → Link c s p k
  src : Is (p 0) src

/-- What the body of a generator gives are values and, last, an exception of its own. -/
theorem CI.str {c : Cfg} {src : Str} {p : Nat → Sp} {s : St} (h : CI c src p s) :
    ∀ k, k ≤ c.n → ∃ t, Is (p k) t
  | 0, _ => ⟨src, h.src⟩
  | k + 1, hk => by
    have L := h.link k (by omega)
    cases he : (p (k + 1)).ended with
    | false => exact ⟨⟨_, none⟩, (L.going he).trans (List.append_nil _).symm, he⟩
    | true =>
      rcases (L.over he).2 with ⟨-, ho⟩ | ⟨x, -, ho⟩
      · exact ⟨⟨(made (c.f k) (s.l k).seen) ++ [c.r k (s.l k).seen], some none⟩, by simpa using ho, he⟩
      · exact ⟨⟨(made (c.f k) (s.l k).seen), some (some x)⟩, ho, he⟩

theorem vals_ne {a : List Nat} {b : List Got} {e : Err} : a.map Got.val ≠ b ++ [.err e] := by
  intro h
  have : Got.err e ∈ a.map Got.val := by rw [h]; simp
  simp at this

/-- A loop over a generator with such a stream. -/
theorem sees_le {p : Sp} {l : For.St} {t : Str} (hl : For.LI false p l) (ht : Is p t) (hb : l.phase ≠ .broken) :
    Le (sees l) t ∧ Proper l.phase := by
  obtain ⟨vs, fin⟩ := t
  obtain ⟨ho, he⟩ := ht
  have key : ∀ (b : List Got), (∀ y ∈ l.seen.map Got.val, y ∉ b) → l.seen.map Got.val <+: vs.map Got.val ++ b → l.seen <+: vs := by
    intro b hb hp
    have hlen : l.seen.length ≤ vs.length := by
      apply Classical.byContradiction
      intro hn
      have hlt : vs.length < l.seen.length := by omega
      have h1 := hp.length_le
      have h2 := List.prefix_iff_eq_take.1 hp
      have h3 : (l.seen.map Got.val)[vs.length]'(by simpa using hlt) ∈ l.seen.map Got.val := List.getElem_mem _
      apply hb _ h3
      have h4 : (l.seen.map Got.val)[vs.length]? = (vs.map Got.val ++ b)[vs.length]? := by
        obtain ⟨r, hr⟩ := hp
        rw [← hr, List.getElem?_append_left (by simpa using hlt)]
      rw [List.getElem?_append_right (by simp)] at h4
      rw [List.getElem?_eq_getElem (by simpa using hlt)] at h4
      exact List.mem_of_getElem? h4.symm
    have : l.seen.map Got.val <+: vs.map Got.val := by
      exact List.prefix_of_prefix_length_le hp (List.prefix_append _ _) (by simpa using hlen)
    rw [List.prefix_iff_eq_take] at this ⊢
    rw [← List.map_take] at this
    have hin := List.map_inj_right (f := Got.val) (by intro a b; simp) |>.1 this
    simpa using hin
  have hpre := hl.prefixOf
  rw [ho] at hpre
  have hpre' : l.seen <+: vs := key _ (by
    intro y hy
    simp only [List.mem_map] at hy
    obtain ⟨v, -, rfl⟩ := hy
    split <;> simp) hpre
  cases hp : l.phase with
  | head => exact ⟨.inr ⟨by simp [sees, hp, ending], hpre'⟩, trivial⟩
  | waiting a => exact ⟨.inr ⟨by simp [sees, hp, ending], hpre'⟩, trivial⟩
  | broken => exact absurd hp hb
  | finished =>
    obtain ⟨h1, h2, -⟩ := hl.finished hp
    rw [ho] at h2
    rw [he] at h1
    refine ⟨.inl ?_, trivial⟩
    match fin, h1 with
    | some none, _ =>
      simp only [List.append_nil] at h2
      have := List.map_inj_right (f := Got.val) (by intro a b; simp) |>.1 h2
      simp [sees, hp, ending, this]
    | some (some x), _ => exact absurd h2.symm vals_ne
  | thrown e =>
    rcases hl.thrown e hp with ⟨-, hx⟩ | ⟨h1, h2, -⟩
    · cases hx
    · rw [ho] at h2
      match fin with
      | none => simp only [List.append_nil] at h2; exact absurd h2 vals_ne
      | some none => simp only [List.append_nil] at h2; exact absurd h2 vals_ne
      | some (some x) =>
        have h3 := List.append_inj' h2 rfl
        have h4 := List.map_inj_right (f := Got.val) (by intro a b; simp) |>.1 h3.1
        simp only [List.cons.injEq, Got.err.injEq, and_true] at h3
        obtain rfl : e = .user x := h3.2.symm
        exact ⟨.inl (by simp only [sees, hp, ending, ← h4]), trivial⟩
  | destroyed =>
    obtain ⟨h1, h2, -⟩ := hl.destroyed hp
    rw [ho] at h2
    match fin with
    | none => simp only [List.append_nil] at h2; exact absurd h2 vals_ne
    | some none => simp only [List.append_nil] at h2; exact absurd h2 vals_ne
    | some (some x) =>
      have h3 := (List.append_inj' h2 rfl).2
      simp at h3

/-- What happens to a loop and its generator. -/
inductive Plain : For.Ev → Prop
  | turn : Plain .turn
  | yield (v : Nat) : Plain (.other (.yield v))
  | ret (v : Nat) : Plain (.other (.ret v))
  | throw (x : Nat) : Plain (.other (.throw x))
  | run : Plain (.other .run)

theorem on_same (s : St) (k : Nat) (e : For.Ev) : (s.on k e).l k = (s.l k).step e := by simp [St.on]

theorem on_other (s : St) {k j : Nat} (e : For.Ev) (h : j ≠ k) : (s.on k e).l j = s.l j := by simp [St.on, h]

/-- The bookkeeping of what the bodies did. -/
def note (p : Nat → Sp) (k : Nat) (e : For.Ev) : Nat → Sp := upd p k ((p k).steps (For.others [e]))

theorem note_same (p : Nat → Sp) (k : Nat) (e : For.Ev) : note p k e k = (p k).steps (For.others [e]) := by simp [note]

theorem note_other (p : Nat → Sp) {k j : Nat} (e : For.Ev) (h : j ≠ k) : note p k e j = p j := by simp [note, h]

variable {c : Cfg} {s : St} {p : Nat → Sp} {k : Nat}

/-- A step of a loop: what it has seen grows by one value, and then it is at its head. -/
theorem plain_keeps {l : For.St} {e : For.Ev} (he : Plain e) (hc : l.can e = true) :
    (l.step e).g.lazy = l.g.lazy ∧ (l.step e).g.recv = l.g.recv ∧ (l.phase ≠ .broken → (l.step e).phase ≠ .broken) ∧
    ((l.step e).seen = l.seen ∨ (l.step e).phase = .head ∧ ∃ v, (l.step e).seen = l.seen ++ [v]) ∧
    (e ≠ .turn → (∀ a, l.phase ≠ .waiting a) → (l.step e).phase = l.phase ∧ (l.step e).seen = l.seen) := by
  by_cases ht : e = .turn
  · subst ht
    obtain ⟨h1, h2, h3, h4, -⟩ := For.turn_keeps l
    exact ⟨h3, h4, h2, h1, fun h => absurd rfl h⟩
  · obtain ⟨x, rfl, h1, h2⟩ : ∃ x, e = .other x ∧ x ≠ .initial ∧ x ≠ .drop := by
      cases he with
      | turn => exact absurd rfl ht
      | _ => exact ⟨_, rfl, by simp, by simp⟩
    have h := For.other_keeps l x
    have hg := h.2.2.2 hc
    have hk := Gen.St.step_keeps l.g h1 h2
    exact ⟨by rw [hg]; exact hk.1, by rw [hg]; exact hk.2, h.2.2.1, h.2.1, fun _ => h.1⟩

theorem Plain.calm {e : For.Ev} (he : Plain e) (a : Option Nat) : e = .other .initial → a = none := by
  intro h; cases he <;> cases h

theorem Plain.soft {e : For.Ev} (he : Plain e) : For.interrupted [e] = false := by cases he <;> rfl

theorem One.received (h : One c s p k) {e : For.Ev} (he : Plain e) (hc : (s.l k).can e = true)
    (hli : For.LI false ((p k).steps (For.others [e])) ((s.l k).step e)) :
    ((s.l k).step e).g.received.length ≤ ((p k).steps (For.others [e])).points := by
  have hrc := h.rc
  have hr : ((s.l k).step e).g.recv = true := (plain_keeps he hc).2.1.trans h.recv
  cases hx : ((p k).steps (For.others [e])).ended with
  | false =>
    obtain ⟨u, hi⟩ := hli.inv
    have := hi.points hr hx
    simp only at this
    omega
  | true =>
    have hold : (p k).ended = true → (s.l k).g.phase = .gone := (h.li.gone h.recv).1
    cases he with
    | turn =>
      have hg := hold hx
      rw [(For.turn_grows _ hc).2.2.2 (by simp [hg])]
      exact hrc
    | run =>
      have hg := hold hx
      simp [For.St.can, Gen.St.can, hg] at hc
    | yield v =>
      have hg : (s.l k).g.phase = .gone := hold (by
        have : ((p k).step (.yield v)).ended = true := hx
        simp only [Sp.step, Sp.out] at this
        split at this <;> exact this)
      simp [For.St.can, Gen.St.can, hg] at hc
    | ret v =>
      rw [(For.other_grows _ (.inr (.inl ⟨v, rfl⟩))).2.2.2 (.inl ⟨v, rfl⟩)]
      have : ((p k).step (.ret v)).points = (p k).points := by simp only [Sp.step, Sp.out]; split <;> rfl
      show _ ≤ ((p k).step (.ret v)).points
      rw [this]; exact hrc
    | throw x =>
      rw [(For.other_grows _ (.inr (.inr (.inl ⟨x, rfl⟩)))).2.2.2 (.inr ⟨x, rfl⟩)]
      have : ((p k).step (.throw x)).points = (p k).points := by simp only [Sp.step, Sp.out]; split <;> rfl
      show _ ≤ ((p k).step (.throw x)).points
      rw [this]; exact hrc

theorem One.on (h : One c s p k) {e : For.Ev} (he : Plain e) (hc : (s.l k).can e = true)
    (hs : e = .turn → k < c.n → s.sent k = (made (c.f k) (s.l k).seen).length) : One c (s.on k e) (note p k e) k := by
  obtain ⟨h1, h2, h3, h4, h5⟩ := plain_keeps he hc
  have hli := h.li.step hc (he.calm _)
  rw [he.soft, Bool.false_or] at hli
  have hsent : k < c.n → (s.l k).phase ≠ .head → s.sent k = (made (c.f k) (s.l k).seen).length := fun hk hp => by
    have := h.le hk
    have := h.wt hk
    apply Classical.byContradiction
    intro hx
    exact hp (this (by omega))
  have hse : k < c.n → (e = .turn ∨ ∃ a, (s.l k).phase = .waiting a) → s.sent k = (made (c.f k) (s.l k).seen).length := fun hk hx => by
    rcases hx with hx | ⟨a, ha⟩
    · exact hs hx hk
    · exact hsent hk (by simp [ha])
  have hold : (e = .turn ∨ ∃ a, (s.l k).phase = .waiting a) ∨
      ((s.l k).step e).phase = (s.l k).phase ∧ ((s.l k).step e).seen = (s.l k).seen := by
    by_cases ht : e = .turn
    · exact .inl (.inl ht)
    · by_cases hw : ∃ a, (s.l k).phase = .waiting a
      · exact .inl (.inr hw)
      · exact .inr (h5 ht (fun a ha => hw ⟨a, ha⟩))
  have hsn : (s.on k e).sent k = s.sent k := rfl
  constructor
  · rw [on_same, note_same]; exact hli
  · rw [on_same, h2]; exact h.recv
  · rw [on_same]; exact h3 h.nb
  · rw [on_same, h1]; exact h.lz
  · intro hk
    rw [on_same, hsn]
    have := h.le hk
    rcases h4 with h4 | ⟨-, v, h4⟩ <;> rw [h4]
    · exact this
    · rw [made_snoc, List.length_append]; omega
  · intro hk; exact h.le0 hk
  · intro hk
    rw [on_same, hsn]
    rcases hold with hx | hx
    · have := hse hk hx
      rcases h4 with h4 | ⟨-, v, h4⟩ <;> rw [h4]
      · exact h.le1 hk
      · rw [List.dropLast_concat]; omega
    · rw [hx.2]; exact h.le1 hk
  · rw [on_same]; exact For.step_next h.nx
  · rw [on_same, note_same]
    exact h.received he hc hli
  · rw [note_same]
    have := h.pt
    have hd := h.li.notDropped h.recv
    cases he <;> simp [For.others, Sp.steps, Sp.step, Sp.out, hd] <;> omega
  · intro hk
    rw [on_same, hsn]
    rcases hold with hx | hx
    · have := hse hk hx
      rcases h4 with h4 | ⟨h6, v, h4⟩
      · rw [h4]; intro; omega
      · intro; exact h6
    · rw [hx.1, hx.2]; exact h.wt hk

theorem One.frame {j : Nat} (h : One c s p j) {e : For.Ev} (hj : j ≠ k) : One c (s.on k e) (note p k e) j := by
  have e1 := on_other s e hj
  have e2 := note_other p e hj
  have e3 : (s.on k e).sent = s.sent := rfl
  obtain ⟨h1, h2, h3, h4, h5, h6, h7, h8, h9, h10, h11⟩ := h
  constructor <;> (try rw [e1]) <;> (try rw [e2]) <;> assumption

/-- The loop over generator `k` did something. -/
theorem Link.below (h : Link c s p k) (hk : k < c.n) (o : One c s p k) {e : For.Ev} (he : Plain e) (hc : (s.l k).can e = true)
    (hr : e = .turn → (s.l (k + 1)).g.phase = .running) : Link c (s.on k e) (note p k e) k := by
  obtain ⟨-, -, -, h4, h5⟩ := plain_keeps he hc
  have e1 := on_other s e (show k + 1 ≠ k by omega)
  have e2 := note_other p e (show k + 1 ≠ k by omega)
  have hsn : (s.on k e).sent k = s.sent k := rfl
  have hle := o.le hk
  refine ⟨?_, ?_, ?_⟩
  · rw [e2, hsn, on_same]
    intro hx
    rw [h.going hx]
    rcases h4 with h4 | ⟨-, v, h4⟩
    · rw [h4]
    · rw [h4, made_snoc, List.take_append_of_le_length hle]
  · rw [e2, hsn, on_same]
    intro hx
    have h6 := h.over hx
    have hph : (s.l k).phase ≠ .head ∧ ∀ a, (s.l k).phase ≠ .waiting a := by
      rcases h6.2 with ⟨h7, -⟩ | ⟨x, h7, -⟩ <;> simp [h7]
    have ht : e ≠ .turn := by
      intro ht
      rw [ht] at hc
      exact hph.1 (by simpa [For.St.can] using hc)
    obtain ⟨h7, h8⟩ := h5 ht hph.2
    rw [h7, h8]
    exact h6
  · rw [e1, e2, hsn, on_same]
    intro hx
    by_cases ht : e = .turn
    · exact .inl (hr ht)
    · by_cases hw : ∃ a, (s.l k).phase = .waiting a
      · obtain ⟨a, ha⟩ := hw
        exact h.runs (.inl (by simp [ha]))
      · obtain ⟨h7, h8⟩ := h5 ht (fun a ha => hw ⟨a, ha⟩)
        rw [h7, h8] at hx
        exact h.runs hx

/-- Generator `k + 1` was used, or the executor ran what it had posted. -/
theorem Link.above (h : Link c s p k) {e : For.Ev} (he : e = .turn ∨ e = .other .run)
    (hc : (s.l (k + 1)).can e = true) : Link c (s.on (k + 1) e) (note p (k + 1) e) k := by
  have e1 := on_other s e (show k ≠ k + 1 by omega)
  have e2 : note p (k + 1) e (k + 1) = p (k + 1) := by
    rw [note_same]; rcases he with rfl | rfl <;> rfl
  have hsn : (s.on (k + 1) e).sent k = s.sent k := rfl
  refine ⟨?_, ?_, ?_⟩
  · rw [e1, e2, hsn]; exact h.going
  · rw [e1, e2, hsn]; exact h.over
  · rw [e1, e2, hsn, on_same]
    intro hx
    rcases h.runs hx with h1 | h1
    · left
      rcases he with rfl | rfl
      · rw [(For.turn_keeps _).2.2.2.2 (by simp [h1]), h1]
      · simp [For.St.can, Gen.St.can, h1] at hc
    · exact .inr h1

theorem Link.frame {j : Nat} (h : Link c s p j) {e : For.Ev} (h1 : j ≠ k) (h2 : j + 1 ≠ k) :
    Link c (s.on k e) (note p k e) j := by
  have e1 := on_other s e h1
  have e2 := note_other p e h2
  have e3 := on_other s e h2
  have hsn : (s.on k e).sent j = s.sent j := rfl
  exact ⟨by rw [e1, e2, hsn]; exact h.going, by rw [e1, e2, hsn]; exact h.over, by rw [e1, e2, e3, hsn]; exact h.runs⟩

theorem out_eq (q : Sp) (hd : q.dropped = false) (x : Gen.Ev) (g : Got) (hx : (q.step x).outs = (q.out g).outs) :
    (q.step x).outs = q.outs ++ [g] := by
  rw [hx]; simp [Sp.out, hd]

variable {src : Str}

theorem CI.turn (h : CI c src p s) (hc : (s.l k).can .turn = true)
    (hs : k < c.n → s.sent k = (made (c.f k) (s.l k).seen).length ∧ (s.l (k + 1)).g.phase = .running) :
    CI c src (note p k .turn) (s.on k .turn) := by
  refine ⟨fun j => ?_, fun j hj => ?_, ?_⟩
  · by_cases hjk : j = k
    · subst hjk
      exact (h.one j).on .turn hc (fun _ hk => (hs hk).1)
    · exact (h.one j).frame hjk
  · by_cases hjk : j = k
    · subst hjk
      exact (h.link j hj).below hj (h.one j) .turn hc (fun _ => (hs hj).2)
    · by_cases hjk' : j + 1 = k
      · subst hjk'
        exact (h.link j hj).above (.inl rfl) hc
      · exact (h.link j hj).frame hjk hjk'
  · have : note p k .turn 0 = p 0 := by
      by_cases hk : 0 = k
      · subst hk; rw [note_same]; rfl
      · exact note_other _ _ hk
    rw [this]; exact h.src

theorem CI.run (h : CI c src p s) (hc : (s.l k).can (.other .run) = true) :
    CI c src (note p k (.other .run)) (s.on k (.other .run)) := by
  refine ⟨fun j => ?_, fun j hj => ?_, ?_⟩
  · by_cases hjk : j = k
    · subst hjk
      exact (h.one j).on .run hc (fun hx => by cases hx)
    · exact (h.one j).frame hjk
  · by_cases hjk : j = k
    · subst hjk
      exact (h.link j hj).below hj (h.one j) .run hc (fun hx => by cases hx)
    · by_cases hjk' : j + 1 = k
      · subst hjk'
        exact (h.link j hj).above (.inr rfl) hc
      · exact (h.link j hj).frame hjk hjk'
  · have : note p k (.other .run) 0 = p 0 := by
      by_cases hk : 0 = k
      · subst hk; rw [note_same]; rfl
      · exact note_other _ _ hk
    rw [this]; exact h.src

/-- The stream of the source with one more action. -/
def Str.add (t : Str) : Src → Str
  | .yield v => { t with vals := t.vals ++ [v] }
  | .ret v => { vals := t.vals ++ [v], fin := some none }
  | .throw x => { t with fin := some (some x) }

theorem Src.plain (a : Src) : Plain (.other a.ev) := by
  cases a with
  | yield v => exact .yield v
  | ret v => exact .ret v
  | throw x => exact .throw x

theorem Is.add {q : Sp} {t : Str} (h : Is q t) (hd : q.dropped = false) (he : q.ended = false) (a : Src) :
    Is (q.steps (For.others [.other a.ev])) (t.add a) := by
  obtain ⟨vs, fin⟩ := t
  obtain ⟨h1, h2⟩ := h
  have hf : fin = none := by
    rw [he] at h2
    cases fin with
    | none => rfl
    | some x => simp at h2
  subst hf
  simp only [List.append_nil] at h1
  cases a <;>
    simp [Is, Str.add, Src.ev, For.others, Sp.steps, Sp.step, Sp.out, hd, h1, he]

theorem Src.runs {l : For.St} {a : Src} (hc : l.can (.other a.ev) = true) : l.g.phase = .running := by
  cases a <;> simpa [Src.ev, For.St.can, Gen.St.can] using hc

theorem CI.source (h : CI c src p s) {a : Src} (hc : (s.l 0).can (.other a.ev) = true) :
    CI c (src.add a) (note p 0 (.other a.ev)) (s.on 0 (.other a.ev)) := by
  refine ⟨fun j => ?_, fun j hj => ?_, ?_⟩
  · by_cases hjk : j = 0
    · subst hjk
      exact (h.one 0).on a.plain hc (fun hx => by cases hx)
    · exact (h.one j).frame hjk
  · by_cases hjk : j = 0
    · subst hjk
      exact (h.link 0 hj).below hj (h.one 0) a.plain hc (fun hx => by cases hx)
    · exact (h.link j hj).frame hjk (by omega)
  · rw [note_same]
    have o := h.one 0
    refine h.src.add (o.li.notDropped o.recv) ?_ a
    cases hx : (p 0).ended with
    | false => rfl
    | true =>
      have := (o.li.gone o.recv).1 hx
      rw [Src.runs hc] at this
      cases this

theorem One.sent {j x : Nat} (h : One c s p j) (hj : j ≠ k) : One c { s with sent := upd s.sent k x } p j := by
  obtain ⟨h1, h2, h3, h4, h5, h6, h7, h8, h9, h10, h11⟩ := h
  have e : ({ s with sent := upd s.sent k x } : St).sent j = s.sent j := by simp [hj]
  constructor <;> (try rw [e]) <;> assumption

theorem Link.sent {j x : Nat} (h : Link c s p j) (hj : j ≠ k) : Link c { s with sent := upd s.sent k x } p j := by
  obtain ⟨h1, h2, h3⟩ := h
  have e : ({ s with sent := upd s.sent k x } : St).sent j = s.sent j := by simp [hj]
  constructor <;> rw [e] <;> assumption

/-- The body of generator `k + 1` runs and has not ended. -/
theorem One.alive (o : One c s p k) (hr : (s.l k).g.phase = .running) : (p k).ended = false ∧ (p k).dropped = false := by
  refine ⟨?_, o.li.notDropped o.recv⟩
  cases hx : (p k).ended with
  | false => rfl
  | true =>
    have := (o.li.gone o.recv).1 hx
    rw [hr] at this
    cases this

theorem CI.frame1 (h : CI c src p s) {e : For.Ev} (he : Plain e) (hc : (s.l (k + 1)).can e = true) (ht : e ≠ .turn) :
    (∀ j, One c (s.on (k + 1) e) (note p (k + 1) e) j) ∧ (∀ j, j < c.n → j ≠ k → Link c (s.on (k + 1) e) (note p (k + 1) e) j) ∧
    Is (note p (k + 1) e 0) src := by
  refine ⟨fun j => ?_, fun j hj hjk => ?_, ?_⟩
  · by_cases hjk : j = k + 1
    · subst hjk
      exact (h.one (k + 1)).on he hc (fun hx => absurd hx ht)
    · exact (h.one j).frame hjk
  · by_cases hjk' : j = k + 1
    · subst hjk'
      exact (h.link (k + 1) hj).below hj (h.one (k + 1)) he hc (fun hx => absurd hx ht)
    · exact (h.link j hj).frame hjk' (by omega)
  · rw [note_other _ _ (by omega)]; exact h.src

theorem CI.yield (h : CI c src p s) (hk : k < c.n) (hr : (s.l (k + 1)).g.phase = .running) {v : Nat} {vs : List Nat}
    (hd : (made (c.f k) (s.l k).seen).drop (s.sent k) = v :: vs) :
    CI c src (note p (k + 1) (.other (.yield (v)))) (s.own k (.yield (v))) := by
  have hc : (s.l (k + 1)).can (.other (.yield (v))) = true := by simp [For.St.can, Gen.St.can, hr]
  obtain ⟨h1, h2, h3⟩ := h.frame1 (.yield (v)) hc (by simp)
  have ok := h.one k
  have o1 := h.one (k + 1)
  have hal := o1.alive hr
  have hlt : s.sent k < (made (c.f k) (s.l k).seen).length := by
    apply Classical.byContradiction
    intro hx
    rw [List.drop_eq_nil_of_le (by omega)] at hd
    cases hd
  have hle1 := ok.le1 hk
  have hph := ok.wt hk hlt
  have e1 := on_other s (For.Ev.other (.yield (v))) (show k ≠ k + 1 by omega)
  refine ⟨fun j => ?_, fun j hj => ?_, h3⟩
  · by_cases hjk : j = k
    · subst hjk
      obtain ⟨g1, g2, g3, g4, g5, g6, g7, g8, g9, g10, g11⟩ := h1 j
      refine ⟨g1, g2, g3, g4, fun _ => ?_, fun hx => by omega, fun _ => ?_, g8, g9, g10, fun _ _ => ?_⟩
      · show upd s.sent j (s.sent j + 1) j ≤ (made (c.f j) ((s.on _ _).l j).seen).length
        rw [e1]; simp; omega
      · show (made (c.f j) ((s.on _ _).l j).seen.dropLast).length ≤ upd s.sent j (s.sent j + 1) j
        rw [e1]; simp; omega
      · show ((s.on _ _).l j).phase = .head
        rw [e1]; exact hph
    · exact (h1 j).sent hjk
  · by_cases hjk : j = k
    · subst hjk
      have hq : (note p (j + 1) (.other (.yield (v))) (j + 1)).ended = false := by
        rw [note_same]; simp [For.others, Sp.steps, Sp.step, Sp.out, hal.1, hal.2]
      have hsent : (s.own j (.yield (v))).sent j = s.sent j + 1 := by simp [St.own]
      have hl : (s.own j (.yield (v))).l j = s.l j := e1
      refine ⟨fun _ => ?_, fun hx => ?_, fun hx => ?_⟩
      · rw [note_same, hl, hsent]
        have hg := (h.link j hj).going hal.1
        have ht : (made (c.f j) (s.l j).seen).take (s.sent j + 1) = (made (c.f j) (s.l j).seen).take (s.sent j) ++ [v] := by
          rw [List.take_add, hd]; rfl
        rw [ht]
        simp [For.others, Sp.steps, Sp.step, Sp.out, hal.2, hg]
      · rw [hq] at hx; cases hx
      · rw [hl, hsent] at hx
        rcases hx with hx | hx
        · exact absurd hph hx
        · omega
    · exact (h2 j hj hjk).sent hjk

/-- The body ends. -/
theorem CI.ends (h : CI c src p s) (hk : k < c.n) (hr : (s.l (k + 1)).g.phase = .running)
    (hd : (made (c.f k) (s.l k).seen).drop (s.sent k) = []) {e : Gen.Ev}
    (he : (s.l k).phase = .finished ∧ e = .ret (c.r k (s.l k).seen) ∨ ∃ x, (s.l k).phase = .thrown (.user x) ∧ e = .throw x) :
    CI c src (note p (k + 1) (.other e)) (s.on (k + 1) (.other e)) := by
  have hc : (s.l (k + 1)).can (.other e) = true := by
    rcases he with ⟨-, rfl⟩ | ⟨x, -, rfl⟩ <;> simp [For.St.can, Gen.St.can, hr]
  have hpl : Plain (.other e) := by
    rcases he with ⟨-, rfl⟩ | ⟨x, -, rfl⟩
    · exact .ret _
    · exact .throw _
  obtain ⟨h1, h2, h3⟩ := h.frame1 hpl hc (by simp)
  have hal := (h.one (k + 1)).alive hr
  have hsent : s.sent k = (made (c.f k) (s.l k).seen).length := by
    have := (h.one k).le hk
    have := List.drop_eq_nil_iff.1 hd
    omega
  refine ⟨h1, fun j hj => ?_, h3⟩
  by_cases hjk : j = k
  · subst hjk
    have e1 := on_other s (For.Ev.other e) (show j ≠ j + 1 by omega)
    have hsn : (s.on (j + 1) (.other e)).sent j = s.sent j := rfl
    have hg := (h.link j hj).going hal.1
    rw [hsent, List.take_length] at hg
    have hq : (note p (j + 1) (.other e) (j + 1)).ended = true := by
      rw [note_same]
      rcases he with ⟨-, rfl⟩ | ⟨x, -, rfl⟩ <;> simp [For.others, Sp.steps, Sp.step]
    refine ⟨fun hx => ?_, fun _ => ?_, fun _ => .inr hq⟩
    · rw [hq] at hx; cases hx
    · rw [hsn, e1, note_same]
      refine ⟨hsent, ?_⟩
      rcases he with ⟨hp, rfl⟩ | ⟨x, hp, rfl⟩
      · exact .inl ⟨hp, by simp [For.others, Sp.steps, Sp.step, Sp.out, hal.2, hg]⟩
      · exact .inr ⟨x, hp, by simp [For.others, Sp.steps, Sp.step, Sp.out, hal.2, hg]⟩
  · exact h2 j hj hjk

/-- One event. -/
theorem CI.step (h : CI c src p s) {e : Ev} (hc : can c s e = true) :
    ∃ p', CI c (match e with | .src a => src.add a | _ => src) p' (step c s e) := by
  unfold Chain.step
  rw [if_pos hc]
  cases e with
  | src a => exact ⟨_, h.source hc⟩
  | run k =>
    simp only [can, Bool.and_eq_true] at hc
    exact ⟨_, h.run hc.2⟩
  | go k =>
    simp only [can, Bool.and_eq_true, decide_eq_true_eq, Bool.or_eq_true, beq_iff_eq, bne_iff_ne] at hc
    obtain ⟨⟨hk, hw⟩, hr⟩ := hc
    simp only [go]
    unfold act at hw ⊢
    by_cases hkn : k < c.n
    · have hrun : (s.l (k + 1)).g.phase = .running := by
        rcases hr with hr | hr
        · omega
        · exact hr
      rw [if_pos hkn] at hw ⊢
      cases hd : (made (c.f k) (s.l k).seen).drop (s.sent k) with
      | cons v vs =>
        simp only
        exact ⟨_, h.yield hkn hrun hd⟩
      | nil =>
        rw [hd] at hw
        simp only at hw ⊢
        have hsent : s.sent k = (made (c.f k) (s.l k).seen).length := by
          have := (h.one k).le hkn
          have := List.drop_eq_nil_iff.1 hd
          omega
        cases hp : (s.l k).phase with
        | head =>
          simp only
          exact ⟨_, h.turn (by simp [For.St.can, hp]) (fun _ => ⟨hsent, hrun⟩)⟩
        | finished =>
          simp only
          rw [if_pos hkn]
          exact ⟨_, h.ends hkn hrun hd (.inl ⟨hp, rfl⟩)⟩
        | thrown x =>
          simp only
          rw [if_pos hkn]
          obtain ⟨t, ht⟩ := h.str k (by omega)
          have := (sees_le (h.one k).li ht (h.one k).nb).2
          rw [hp] at this
          cases x with
          | user x => exact ⟨_, h.ends hkn hrun hd (.inr ⟨x, hp, rfl⟩)⟩
          | _ => exact this.elim
        | waiting a => rw [hp] at hw; exact absurd rfl hw
        | broken => rw [hp] at hw; exact absurd rfl hw
        | destroyed => rw [hp] at hw; exact absurd rfl hw
    · rw [if_neg hkn] at hw ⊢
      simp only at hw ⊢
      cases hp : (s.l k).phase with
      | head => exact ⟨_, h.turn (by simp [For.St.can, hp]) (fun hx => absurd hx hkn)⟩
      | finished => rw [hp] at hw; simp [hkn] at hw
      | thrown x => rw [hp] at hw; simp [hkn] at hw
      | waiting a => rw [hp] at hw; exact absurd rfl hw
      | broken => rw [hp] at hw; exact absurd rfl hw
      | destroyed => rw [hp] at hw; exact absurd rfl hw

end Cobalt.Gen.Chain
