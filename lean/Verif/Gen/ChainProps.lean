import Verif.Gen.ChainCount
/-!
# C109: a chain of generators computes the composition of its stages

`source es` is what the source did in the history `es`, `through c n` what the stages make of
a stream, `sees` what the last loop was run with and how it ended (`Gen/ChainSpec.lean`).
-/
namespace Cobalt.Gen.Chain

open Prom (upd upd_apply)

/-- Two stages: `v + 1`, then `2 * v`. The source is lazy. -/
def sample : Cfg :=
  { n := 2, f := fun k _ v => if k = 0 then [v + 1] else [2 * v], r := fun k _ => 100 * k, lz := fun k => k = 0 }

/-- The source yields `1` and returns `3`, the chain rests in between. -/
def history : List Ev :=
  [.go 2, .go 1, .go 0, .src (.yield 1), .go 0, .go 1, .go 2, .run 1, .go 0, .run 2, .go 1,
   .src (.ret 3), .go 0, .go 1, .go 2, .run 1, .go 0, .go 0, .run 2, .go 1, .go 1, .go 2, .run 2, .go 1, .go 1, .go 2]

/-- The stages of `sample` with eager generators only. -/
def eager : Cfg := { sample with lz := fun _ => false }

/-- Nobody asks the last generator for anything. -/
def ahead : List Ev :=
  [.src (.yield 5), .go 1, .go 0, .go 0, .go 1, .run 0, .src (.yield 6), .run 1, .go 0, .go 0, .run 0, .src (.yield 7)]

theorem quiet_iff (c : Cfg) (s : St) :
    Quiet c s ↔ ∀ k, k < c.n + 1 → can c s (.run k) = false ∧ can c s (.go k) = false := by
  constructor
  · intro h k _
    exact ⟨h _ (by simp), h _ (by simp)⟩
  · intro h e he
    cases e with
    | src a => exact absurd rfl (he a)
    | run k =>
      by_cases hk : k < c.n + 1
      · exact (h k hk).1
      · simp [can, show ¬k ≤ c.n by omega]
    | go k =>
      by_cases hk : k < c.n + 1
      · exact (h k hk).2
      · simp [can, show ¬k ≤ c.n by omega]

instance (c : Cfg) (s : St) : Decidable (Quiet c s) := decidable_of_iff _ (quiet_iff c s).symm

/-- The full statement for a history: at any time the last loop has seen a part of the composition
of the stages on what the source did, in order; nothing was lost, doubled or changed, and if the
loop has ended it has seen all. -/
theorem C109_safe {c : Cfg} {es : List Ev} (hl : Legal c (new c) es) :
    Le (sees ((run c es).l c.n)) (through c c.n (source es)) := by
  obtain ⟨p, h⟩ := after hl
  obtain ⟨t, ht, hle⟩ := h.through c.n (Nat.le_refl _)
  exact (sees_le (h.one c.n).li ht (h.one c.n).nb).1.trans hle

/-- The same for the loop of each stage. -/
theorem C109_stages {c : Cfg} {es : List Ev} (hl : Legal c (new c) es) {k : Nat} (hk : k ≤ c.n) :
    Le (sees ((run c es).l k)) (through c k (source es)) := by
  obtain ⟨p, h⟩ := after hl
  obtain ⟨t, ht, hle⟩ := h.through k hk
  exact (sees_le (h.one k).li ht (h.one k).nb).1.trans hle

/-- Nothing of the chain is undefined, and a loop ends only with its generator, by its end or by an
exception of the source: no `already_awaited`, no `detached`, no destruction. -/
theorem C109_proper {c : Cfg} {es : List Ev} (hl : Legal c (new c) es) {k : Nat} (hk : k ≤ c.n) :
    ((run c es).l k).g.ub = false ∧ Proper ((run c es).l k).phase := by
  obtain ⟨p, h⟩ := after hl
  obtain ⟨u, hi⟩ := (h.one k).li.inv
  exact ⟨hi.ub, proper h hk⟩

/-- When the chain has come to rest, the last loop has seen exactly the composition of the stages on
what the source did, and has ended if the source has. -/
theorem C109_exact {c : Cfg} {es : List Ev} (hl : Legal c (new c) es) (hq : Quiet c (run c es)) :
    sees ((run c es).l c.n) = through c c.n (source es) := by
  obtain ⟨p, h⟩ := after hl
  exact h.exact hq

example : Legal sample (new sample) history ∧ Quiet sample (run sample history) ∧
    source history = ⟨[1, 3], some none⟩ ∧ sees ((run sample history).l 2) = ⟨[4, 8, 0, 100], some none⟩ := by
  decide

/-- A stage that leaves out odd numbers and returns the sum of what it saw, and one that repeats each value. -/
def uneven : Cfg :=
  { n := 2, f := fun k _ v => if k = 0 then (if v % 2 = 0 then [v] else []) else [v, v]
    r := fun k p => if k = 0 then p.sum else p.length, lz := fun _ => false }

example : through uneven 2 ⟨[1, 2, 4], some none⟩ = ⟨[2, 2, 4, 4, 7, 7, 3], some none⟩ := by decide

example : Legal uneven (new uneven) [.src (.yield 1), .go 0, .go 0, .run 0, .src (.yield 2), .go 0, .go 1, .go 1, .go 2, .run 2, .go 1,
      .go 2] ∧
    ((run uneven [.src (.yield 1), .go 0, .go 0, .run 0, .src (.yield 2), .go 0, .go 1, .go 1, .go 2, .run 2, .go 1, .go 2]).l 2).seen =
      [2, 2] := by decide

/-- An exception of the source ends every loop, after the values. -/
example : through sample 2 ⟨[1, 2], some (some 7)⟩ = ⟨[4, 6], some (some 7)⟩ := by decide

/-- How many events were not of the source. -/
def work (es : List Ev) : Nat := es.countP (fun e => !e.ofSrc)

/-- It comes to rest, whatever the order: there are at most five steps for each generator and three for each value
that one of them gives. -/
theorem C109_bounded {c : Cfg} {es : List Ev} (hl : Legal c (new c) es) :
    work es ≤ total (fun k => 3 * len c (source es) k + 5) c.n := by
  have key : work es ≤ total (m (run c es)) c.n := by
    refine legal_ind (P := fun es => work es ≤ total (m (run c es)) c.n) (Nat.zero_le _) ?_ es hl
    intro es e hl hc ih
    obtain ⟨p, h⟩ := after hl
    have := h.counts hc
    rw [run_snoc]
    have hw : work (es ++ [e]) = work es + (if e.ofSrc then 0 else 1) := by
      unfold work
      rw [List.countP_append, List.countP_singleton]
      cases e.ofSrc <;> rfl
    rw [hw]
    omega
  obtain ⟨p, h⟩ := after hl
  have := h.bounded c.n (Nat.le_refl _)
  rw [if_neg (by omega)] at this
  omega

/-- If no stage makes two values of one, and the source gave `m` values, the chain of `n` stages does at most
`(n + 1) * (3 * (m + n) + 5)` steps. -/
theorem C109_steps {c : Cfg} {es : List Ev} (hl : Legal c (new c) es) (hf : ∀ k p v, (c.f k p v).length ≤ 1) :
    work es ≤ (c.n + 1) * (3 * ((source es).vals.length + c.n) + 5) := by
  have key : ∀ (f : List Nat → Nat → List Nat), (∀ p v, (f p v).length ≤ 1) → ∀ (l p : List Nat),
      (madeFrom f p l).length ≤ l.length := by
    intro f hf l
    induction l with
    | nil => intro p; exact Nat.le_refl _
    | cons v l ih =>
      intro p
      have := ih (p ++ [v])
      have := hf p v
      rw [madeFrom, List.length_append, List.length_cons]
      omega
  have hlen : ∀ k, len c (source es) k ≤ (source es).vals.length + k := by
    intro k
    induction k with
    | zero => exact Nat.le_refl _
    | succ k ih =>
      have h1 : len c (source es) (k + 1) = (stage (c.f k) (c.r k) (through c k (source es))).vals.length := rfl
      have h2 := key (c.f k) (hf k) (through c k (source es)).vals []
      rw [h1, stage_vals, List.length_append]
      unfold made
      unfold len at ih
      split <;> simp <;> omega
  refine Nat.le_trans (C109_bounded hl) (total_le _ fun k hk => ?_)
  have := hlen k
  show 3 * len c (source es) k + 5 ≤ _
  omega

example : Legal sample (new sample) history ∧ work history = 24 := by decide

/-- From any point the chain can go on to rest without the source, so nothing is stuck: by `C109_bounded`
it does, and by `C109_exact` the last loop has seen all then. -/
theorem C109_rests {c : Cfg} {es : List Ev} (hl : Legal c (new c) es) :
    ∃ fs, Legal c (new c) (es ++ fs) ∧ (∀ e ∈ fs, ∀ a, e ≠ .src a) ∧ Quiet c (run c (es ++ fs)) ∧
      sees ((run c (es ++ fs)).l c.n) = through c c.n (source es) := by
  have nosrc : ∀ fs : List Ev, (∀ e ∈ fs, ∀ a, e ≠ .src a) → ∀ es, source (es ++ fs) = source es := by
    intro fs hf es
    induction es with
    | nil =>
      induction fs with
      | nil => rfl
      | cons e fs ih =>
        have h1 := ih (fun x hx => hf x (List.mem_cons_of_mem _ hx))
        cases e with
        | src a => exact absurd rfl (hf _ List.mem_cons_self a)
        | run k => exact h1
        | go k => exact h1
    | cons e es ih =>
      cases e with
      | src a => cases a <;> simp [source, ih]
      | run k => exact ih
      | go k => exact ih
  have key : ∀ d es, Legal c (new c) es → work es + d = total (fun k => 3 * len c (source es) k + 5) c.n →
      ∃ fs, Legal c (new c) (es ++ fs) ∧ (∀ e ∈ fs, ∀ a, e ≠ .src a) ∧ Quiet c (run c (es ++ fs)) := by
    intro d
    induction d with
    | zero =>
      intro es hl hd
      by_cases hq : Quiet c (run c es)
      · exact ⟨[], by simpa using hl, by simp, by simpa using hq⟩
      · exfalso
        apply hq
        intro e he
        cases hc : can c (run c es) e with
        | false => rfl
        | true =>
          have hl' : Legal c (new c) (es ++ [e]) := (legal_append _ _ _ _).2 ⟨hl, hc, trivial⟩
          have hb := C109_bounded hl'
          rw [nosrc [e] (by simpa using he)] at hb
          have hw : work (es ++ [e]) = work es + 1 := by
            cases e with
            | src a => exact absurd rfl (he a)
            | _ => simp [work, Ev.ofSrc]
          omega
    | succ d ih =>
      intro es hl hd
      by_cases hq : Quiet c (run c es)
      · exact ⟨[], by simpa using hl, by simp, by simpa using hq⟩
      · have : ∃ e, (∀ a, e ≠ .src a) ∧ can c (run c es) e = true := by
          apply Classical.byContradiction
          intro hx
          apply hq
          intro e he
          cases hc : can c (run c es) e with
          | false => rfl
          | true => exact absurd ⟨e, he, hc⟩ hx
        obtain ⟨e, he, hc⟩ := this
        have hl' : Legal c (new c) (es ++ [e]) := (legal_append _ _ _ _).2 ⟨hl, hc, trivial⟩
        have hw : work (es ++ [e]) = work es + 1 := by
          cases e with
          | src a => exact absurd rfl (he a)
          | _ => simp [work, Ev.ofSrc]
        obtain ⟨fs, h1, h2, h3⟩ := ih (es ++ [e]) hl' (by rw [nosrc [e] (by simpa using he), hw]; omega)
        rw [List.append_assoc] at h1 h3
        refine ⟨e :: fs, h1, ?_, h3⟩
        intro x hx
        rcases List.mem_cons.1 hx with rfl | hx
        · exact he
        · exact h2 x hx
  obtain ⟨fs, h1, h2, h3⟩ := key _ es hl (Nat.add_sub_cancel' (C109_bounded hl))
  exact ⟨fs, h1, h2, h3, by rw [C109_exact h1 h3, nosrc fs h2]⟩

/-- How many of the generators before the last are eager. -/
def eagers (c : Cfg) : Nat := (List.range c.n).countP (fun k => !c.lz k)

theorem slack_eq (c : Cfg) : ∀ d k, slack c k d = 1 + (List.range' k d).countP (fun k => !c.lz k)
  | 0, _ => rfl
  | d + 1, k => by
    rw [slack, slack_eq c d (k + 1), List.range'_succ, List.countP_cons]
    cases c.lz k <;> simp <;> omega

/-- If every stage yields something for each value, the source is ahead of the last loop by one value and one for each
eager generator before the last at most. -/
theorem C109_ahead {c : Cfg} {es : List Ev} (hl : Legal c (new c) es)
    (hf : ∀ k, k < c.n → ∀ p v, 1 ≤ (c.f k p v).length) :
    (source es).vals.length ≤ ((run c es).l c.n).seen.length + 1 + eagers c := by
  obtain ⟨p, h⟩ := after hl
  have := (h.slack hf c.n 0 (by omega)).1
  rw [h.src.nv, slack_eq, ← List.range_eq_range'] at this
  unfold eagers
  omega

/-- And it can be. -/
example : Legal eager (new eager) ahead ∧ (source ahead).vals = [5, 6, 7] ∧ ((run eager ahead).l 2).seen = [] ∧ eagers eager = 2 := by
  decide

/-- A chain of lazy generators does nothing before the last loop asks: as long as that has awaited nothing, the
source has not moved, nor any stage. -/
theorem C109_lazy {c : Cfg} {es : List Ev} (hl : Legal c (new c) es) (hz : ∀ k, k ≤ c.n → c.lz k = true)
    (hn : Ev.go c.n ∉ es) : es = [] := by
  have key : ∀ es, Legal c (new c) es → Ev.go c.n ∉ es → es = [] := by
    refine legal_ind (P := fun es => Ev.go c.n ∉ es → es = []) (fun _ => rfl) ?_
    intro es e hl hc ih hn
    have hes := ih (fun hx => hn (List.mem_append_left _ hx))
    subst hes
    exfalso
    have hp : ∀ k, k ≤ c.n → (new c).l k = For.St.run true [.other .initial] := fun k hk => by simp [new, hz k hk]
    cases e with
    | src a =>
      have hc : ((new c).l 0).can (.other a.ev) = true := hc
      rw [hp 0 (Nat.zero_le _)] at hc
      cases a <;> cases hc
    | run k =>
      simp only [can, Bool.and_eq_true, decide_eq_true_eq] at hc
      have hc2 : ((new c).l k).can (.other .run) = true := hc.2
      rw [hp k hc.1] at hc2
      cases hc2
    | go k =>
      simp only [can, Bool.and_eq_true, decide_eq_true_eq, Bool.or_eq_true, beq_iff_eq] at hc
      rcases hc.2 with hk | hk
      · exact hn (by simp [hk])
      · by_cases hkn : k = c.n
        · exact hn (by simp [hkn])
        · have hk2 : ((new c).l (k + 1)).g.phase = .running := hk
          rw [hp (k + 1) (by omega)] at hk2
          cases hk2
  exact key es hl hn

/-- Such a chain exists and works. -/
example : Legal { sample with lz := fun _ => true } (new { sample with lz := fun _ => true })
    [.go 2, .go 1, .go 0, .src (.yield 1), .go 0, .go 1] ∧
    ((run { sample with lz := fun _ => true } [.go 2, .go 1, .go 0, .src (.yield 1), .go 0, .go 1]).l 2).seen = [4] := by
  decide

end Cobalt.Gen.Chain
