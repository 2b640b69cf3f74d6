import Verif.Again.Prom
/-!
# C93: racing the same promises twice

doc/reference/race.adoc, "Interrupt Wait": `co_await race(t1, t2)` twice waits "for the
first task to complete", then "for the other task to complete".
-/
namespace Cobalt.Again

open Comb (Cfg)

/-- **C93**. Of two promises raced twice, the second race is not won by the winner of the
first. -/
def C93 : Prop :=
  ∀ (c : Cfg) (es : List (Ev prom)), Proper c → c.n = 2 → Legal c proms es → (proms.steps c es).fine →
    ∀ i x y, (0, .winner i x) ∈ (proms.steps c es).gave → (1, .winner i y) ∉ (proms.steps c es).gave

/-- What is missing for **C93**: once a promise is done, no race of it waits, whoever else is
not done. -/
theorem C93_ready {c : Cfg} (hc : Proper c) {es : List (Ev prom)} (hl : Legal c proms es) (hm : Marked es)
    (hf : (proms.steps c es).fine) {i : Nat} (hi : i < c.n) {o : Prom.Out} (ha : Ev.act i o ∈ es)
    (hs : (proms.steps c es).comb.stack = []) (hp : (proms.steps c es).comb.phase ≠ .before) :
    (proms.steps c es).comb.over := by
  by_cases ho : (proms.steps c es).comb.over
  · exact ho
  · exfalso
    have h0 : Good (fun s => ∃ R, Sound s R) c proms [] := Good.start proms_start c
    have hw : (((proms.steps c es).src i).recv 0).bind _ = _ := awaits_all prom_ok hc proms_start hl hm hf hs hp ho hi
    have hst := Store.steps hc es h0 (old := []) (fun _ _ h => absurd h List.not_mem_nil) hl hf
    obtain ⟨R, h1, h2⟩ := hst i o ha
    rw [h1.recv] at hw
    rcases h1.stage with ⟨h3, -⟩ | ⟨-, h3, -⟩
    · rw [kept_done h1 h2] at h3; simp at h3
    · simp [h3] at hw

/-- **C93** for values: of all races that promise `i` wins, at most one gives the value of its
coroutine; the others give what is left of it. -/
theorem C93_once_partial {c : Cfg} (hc : Proper c) {es : List (Ev prom)} (hl : Legal c proms es)
    (hf : (proms.steps c es).fine) {r r' i x y : Nat} (h : (r, .winner i (some (x + 1))) ∈ (proms.steps c es).gave)
    (h' : (r', .winner i (some (y + 1))) ∈ (proms.steps c es).gave) : r = r' ∧ x = y := by
  have h0 : Good (fun s => ∃ R, Sound s R) c proms [] := Good.start proms_start c
  obtain ⟨_, hg⟩ := h0.steps prom_ok hc es hl hf
  have key : ∀ r x, (r, .winner i (some (x + 1))) ∈ (proms.steps c es).gave →
      (r, x) ∈ vals ((proms.steps c es).src i).log := by
    intro r x hx
    obtain ⟨j, g, h1, h2⟩ := hg.old r _ hx
    have h3 := List.mem_of_getLast? h1
    have hgv : j = i ∧ g = .val x := by
      cases g with
      | val v => simp [given, promOut] at h2; exact ⟨h2.1.symm, by rw [h2.2]⟩
      | moved => simp [given, promOut] at h2
      | err e => simp [given, promOut] at h2
    obtain ⟨rfl, rfl⟩ := hgv
    unfold handedTo at h3
    rw [List.mem_filterMap] at h3
    obtain ⟨⟨r₁, j₁, g₁⟩, h4, h5⟩ := h3
    simp only [Option.ite_none_right_eq_some, Option.some.injEq, Prod.mk.injEq] at h5
    obtain ⟨rfl, rfl, rfl⟩ := h5
    have h6 : ((proms.steps c es).src j₁).log = _ := hg.log j₁
    unfold vals
    rw [h6, List.mem_filterMap]
    exact ⟨(r₁, .val x), List.mem_filterMap.2 ⟨_, h4, by simp⟩, rfl⟩
  obtain ⟨R, hR⟩ := (hg.src i).1
  have k := key r x h
  have k' := key r' y h'
  rcases hR.stage with ⟨-, -, -, -, h1⟩ | ⟨-, -, -, ⟨e, -, h1⟩ | ⟨-, v, -, h1⟩ | ⟨-, -, a, v, h1⟩⟩
  · rw [h1] at k; simp at k
  · rw [h1] at k; simp at k
  · rw [h1] at k; simp at k
  · rw [h1] at k k'
    simp only [List.mem_singleton, Prod.mk.injEq] at k k'
    exact ⟨k.1.trans k'.1.symm, k.2.trans k'.2.symm⟩

/-- **C93**, what holds of it, if `done()` of frames that have destroyed themselves says yes: the value
of each coroutine that has ended is what a race gave, or what the present race was handed,
or is still in the promise. None is lost by interrupting. -/
theorem C93_kept_partial {c : Cfg} (hc : Proper c) {es : List (Ev prom)} (hl : Legal c proms es) (hm : Marked es)
    (hf : (proms.steps c es).fine) {i v : Nat} (ha : Ev.act i (Prom.Out.val v) ∈ es) :
    (∃ r, (r, .winner i (some (v + 1))) ∈ (proms.steps c es).gave) ∨
    (i, Prom.Got.val v) ∈ handedTo (proms.steps c es) (proms.steps c es).round ∨
    ∃ R, ((proms.steps c es).src i).recv 0 = some R ∧ R.done = true ∧ R.exc = none ∧ R.result = some (some v) := by
  have h0 : Good (fun s => ∃ R, Sound s R) c proms [] := Good.start proms_start c
  obtain ⟨_, hg⟩ := h0.steps prom_ok hc es hl hf
  have hst := Store.steps hc es h0 (old := []) (fun _ _ h => absurd h List.not_mem_nil) hl hf
  obtain ⟨R, h1, h2⟩ := hst i _ ha
  have hd := kept_done h1 h2
  obtain ⟨h3, h4 | ⟨a, h4⟩⟩ := h2
  · exact Or.inr (Or.inr ⟨R, h1.recv, hd, h3, h4⟩)
  · have h5 : ((proms.steps c es).src i).log = _ := hg.log i
    rw [h5, List.mem_filterMap] at h4
    obtain ⟨⟨r, j, g⟩, h6, h7⟩ := h4
    simp only [Option.ite_none_right_eq_some, Option.some.injEq, Prod.mk.injEq] at h7
    obtain ⟨rfl, rfl, rfl⟩ := h7
    have h8 : (j, Prom.Got.val v) ∈ handedTo (proms.steps c es) r := by
      unfold handedTo; rw [List.mem_filterMap]; exact ⟨_, h6, by simp⟩
    have hle := hg.le _ h6
    by_cases hr : r = (proms.steps c es).round
    · right; left; rw [← hr]; exact h8
    · left
      obtain ⟨h9, -⟩ := lossless prom_ok hc proms_start hl hm hf h8 rfl
      have : r ∈ (proms.steps c es).gave.map Prod.fst := by
        rw [hg.gave]; simp only [List.mem_reverse, List.mem_range]; dsimp only at hle; omega
      obtain ⟨⟨r', res⟩, k1, rfl⟩ := List.mem_map.1 this
      obtain ⟨i', g', k2, k3⟩ := hg.old r' res k1
      rw [h9] at k2
      simp only [Option.some.injEq, Prod.mk.injEq] at k2
      obtain ⟨rfl, rfl⟩ := k2
      exact ⟨r', by rw [k3] at k1; exact k1⟩

/-- Races of two promises, asked in this order. -/
def two (l : List Nat) : Cfg := { kind := .race, n := 2, order := l }

theorem two_proper : Proper (two [0, 1]) ∧ Proper (two [1, 0]) := by
  constructor <;> refine ⟨⟨by decide, fun i => ?_, fun h => absurd rfl h⟩, rfl, fun _ => rfl, fun _ => rfl, rfl⟩ <;>
    (simp [two]; omega)

/-- Promise 0 is done, 1 is not. Race 0 asks 0 first. So does race 1. -/
def twice : List (Ev prom) :=
  [.act 0 (.val 7), .begin, .ask 0 true, .ret true, .next, .begin, .ask 0 true, .ret true, .next]

/-- Asking 1 first makes no difference: it is let go. -/
def twice' : List (Ev prom) :=
  [.act 0 (.val 7), .begin, .ask 0 true, .ret true, .ask 0 true, .ret true, .intr, .ret true, .ret true, .ret true, .next,
    .begin, .ask 0 true, .ret true, .ask 0 true, .ret true, .intr, .ret true, .ret true, .ret true, .next]

set_option maxRecDepth 20000 in
/-- **C93** does not hold: `await_ready` of a promise is whether it is done
(detail/promise.hpp:187), so the first task wins the second race too. -/
theorem C93_violated : ¬C93 := by
  intro h
  exact absurd (show (1, .winner 0 (some 0)) ∈ (proms.steps (two [0, 1]) twice).gave by decide)
    (h (two [0, 1]) twice two_proper.1 rfl (by decide) (by decide) 0 (some 8) (some 0) (by decide))

set_option maxRecDepth 20000 in
/-- The second race gives a value that was moved from, and the other task still runs. -/
example : Legal (two [0, 1]) proms twice ∧ Marked twice ∧ (proms.steps (two [0, 1]) twice).fine ∧
    (proms.steps (two [0, 1]) twice).gave = [(1, .winner 0 (some 0)), (0, .winner 0 (some 8))] ∧
    ((proms.steps (two [0, 1]) twice).src 1).can (.finish 0 (.val 1)) = true := by
  refine ⟨by decide, by simp [Marked, twice, Ev.marked], by decide, by decide, by decide⟩

set_option maxRecDepth 20000 in
example : Legal (two [1, 0]) proms twice' ∧ (proms.steps (two [1, 0]) twice').fine ∧
    (proms.steps (two [1, 0]) twice').gave = [(1, .winner 0 (some 0)), (0, .winner 0 (some 8))] := by decide

set_option maxRecDepth 20000 in
/-- A value that waits in its promise: 1 is let go by race 0 and ends then. -/
example : Legal (two [1, 0]) proms (twice'.take 11 ++ [.act 1 (.val 3)]) ∧
    (proms.steps (two [1, 0]) (twice'.take 11 ++ [.act 1 (.val 3)])).fine ∧
    (((proms.steps (two [1, 0]) (twice'.take 11 ++ [.act 1 (.val 3)])).src 1).recv 0).bind Prom.Rec.result = some (some 3) := by
  decide

end Cobalt.Again
