import Verif.Again.Stream
import Verif.Again.Wait
/-!
# C92: racing the same generators again and again loses nothing

doc/design/race.adoc: a loop awaits `race(g1, g2)` for two generators that live on. The
losers are interrupted, not cancelled, because cancelling "would however lose data".
-/
namespace Cobalt.Again

open Comb (Cfg)

/-- **C92**. Whatever a generator hands over to a race that has ended, other than the
answer to an interruption, is what this race gave. -/
def C92 : Prop :=
  ∀ (c : Cfg) (void : Nat → Bool) (es : List (Ev gen)), Proper c → Legal c (gens void) es →
    ((gens void).steps c es).fine → ∀ r i g, (i, g) ∈ handedTo ((gens void).steps c es) r →
    r < ((gens void).steps c es).round → g ≠ .err .detached →
    (r, given i (genOut g)) ∈ ((gens void).steps c es).gave

/-- What each race gave is the first thing handed over to it. Always. -/
theorem C92_first {c : Cfg} (hc : Proper c) {void : Nat → Bool} {es : List (Ev gen)} (hl : Legal c (gens void) es)
    (hf : ((gens void).steps c es).fine) :
    ((gens void).steps c es).gave.map Prod.fst = (List.range ((gens void).steps c es).round).reverse ∧
    ∀ r res, (r, res) ∈ ((gens void).steps c es).gave →
      ∃ i g, (handedTo ((gens void).steps c es) r).getLast? = some (i, g) ∧ res = given i (genOut g) :=
  results gen_ok hc (gens_start void) hl hf

/-- **C92**, if `done()` of the frames that have destroyed themselves says yes
(race.hpp:318-319; asking is undefined behaviour). What is missing: it may say no, and then the
next generators are asked after the race is decided. -/
theorem C92_partial {c : Cfg} (hc : Proper c) {void : Nat → Bool} {es : List (Ev gen)} (hl : Legal c (gens void) es)
    (hm : Marked es) (hf : ((gens void).steps c es).fine) {r i : Nat} {g : Gen.Got}
    (hg : (i, g) ∈ handedTo ((gens void).steps c es) r) (hr : r < ((gens void).steps c es).round)
    (hd : g ≠ .err .detached) : (r, given i (genOut g)) ∈ ((gens void).steps c es).gave := by
  obtain ⟨h1, h2⟩ := results gen_ok hc (gens_start void) hl hf
  obtain ⟨h3, -⟩ := lossless gen_ok hc (gens_start void) hl hm hf hg (by simpa using hd)
  have : r ∈ ((gens void).steps c es).gave.map Prod.fst := by rw [h1]; simpa using hr
  obtain ⟨⟨r', res⟩, h4, rfl⟩ := List.mem_map.1 this
  obtain ⟨j, g', h5, rfl⟩ := h2 r' res h4
  rw [h3] at h5
  simp only [Option.some.injEq, Prod.mk.injEq] at h5
  obtain ⟨rfl, rfl⟩ := h5
  exact h4

/-- Exactly, whatever `done()` says: what was handed over to a race that has ended reached its awaiter if and only if it is
the same as what was handed over first. So a value is lost exactly if another one came before it. -/
theorem C92_exact {c : Cfg} (hc : Proper c) {void : Nat → Bool} {es : List (Ev gen)} (hl : Legal c (gens void) es)
    (hf : ((gens void).steps c es).fine) {r i j : Nat} {g g' : Gen.Got}
    (hr : r < ((gens void).steps c es).round)
    (hfirst : (handedTo ((gens void).steps c es) r).getLast? = some (j, g')) :
    (r, given i (genOut g)) ∈ ((gens void).steps c es).gave ↔ given i (genOut g) = given j (genOut g') := by
  obtain ⟨h1, h2⟩ := results gen_ok hc (gens_start void) hl hf
  constructor
  · intro h
    obtain ⟨k, g'', h5, h6⟩ := h2 r _ h
    rw [hfirst] at h5
    simp only [Option.some.injEq, Prod.mk.injEq] at h5
    obtain ⟨rfl, rfl⟩ := h5
    exact h6
  · intro h
    have : r ∈ ((gens void).steps c es).gave.map Prod.fst := by rw [h1]; simpa using hr
    obtain ⟨⟨r', res⟩, h4, rfl⟩ := List.mem_map.1 this
    obtain ⟨k, g'', h5, rfl⟩ := h2 r' res h4
    rw [hfirst] at h5
    simp only [Option.some.injEq, Prod.mk.injEq] at h5
    obtain ⟨rfl, rfl⟩ := h5
    rw [h]
    exact h4

/-- A value as it is. -/
def isVal : Gen.Got → Option Nat
  | .val v => some v
  | .err _ => none

theorem filter_isVal (l : List Gen.Got) : (l.filter Gen.ofBody).filterMap isVal = l.filterMap isVal := by
  rw [List.filterMap_filter]
  congr 1
  funext g
  cases g with
  | val v => rfl
  | err e => cases h : Gen.ofBody (.err e) <;> simp [isVal]

theorem vals_by (i : Nat) (l : List (Nat × Nat × Gen.Got)) :
    l.filterMap (fun x => valBy i x.2) = (l.filterMap fun x => if x.2.1 = i then some x.2.2 else none).filterMap isVal := by
  rw [List.filterMap_filterMap]
  congr 1
  funext ⟨r, j, g⟩
  by_cases h : j = i <;> cases g <;> simp [valBy, isVal, h]

/-- **C92** from one end to the other, for generators that do not await `initial`: the
values the coroutine of generator `i` yields and returns are, in order, those of the races
that it won, then one that was handed over to the present race, then those it still
holds. -/
theorem C92_stream_partial {c : Cfg} (hc : Proper c) {void : Nat → Bool} {es : List (Ev gen)} (hl : Legal c (gens void) es)
    (hm : Marked es) (he : Eager es) (hf : ((gens void).steps c es).fine) (i : Nat) :
    (outs i es).filterMap isVal =
      ((gens void).steps c es).gave.reverse.filterMap (wonBy i) ++
      (handedTo ((gens void).steps c es) ((gens void).steps c es).round).reverse.filterMap (valBy i) ++
      (held (((gens void).steps c es).src i)).filterMap isVal := by
  have h0 : Good (fun _ => True) c (gens void) [] := Good.start (gens_start void) c
  obtain ⟨_, h⟩ := h0.steps gen_ok hc es hl hf
  have h1 := (Flow.steps hc gen_ok es h0 (Flow.start void) hl he hf).held i
  have h2 := Tally.steps hc gen_ok es h0 (Sharp.start (gens_start void) c) (Tally.start void) hl hm hf i
  have h3 : (((gens void).steps c es).src i).log = _ := h.log i
  rw [List.nil_append] at h1
  rw [← h2, h1, List.filterMap_append, filter_isVal, h3, vals_by, ← List.filterMap_reverse, List.map_filterMap]
  congr 1
  rw [List.filterMap_filterMap, List.filterMap_filterMap]
  congr 1
  funext ⟨r, j, g⟩
  by_cases h : j = i <;> simp [h]

/-- A race of generators that do not await `initial` waits only while none of them holds
anything. -/
theorem C92_wait_partial {c : Cfg} (hc : Proper c) {void : Nat → Bool} {es : List (Ev gen)} (hl : Legal c (gens void) es)
    (hm : Marked es) (he : Eager es) (hf : ((gens void).steps c es).fine) (hs : ((gens void).steps c es).comb.stack = [])
    (hp : ((gens void).steps c es).comb.phase ≠ .before) (ho : ¬((gens void).steps c es).comb.over) {i : Nat} (hi : i < c.n) :
    held (((gens void).steps c es).src i) = [] := by
  have hw : (((gens void).steps c es).src i).awaited = _ := awaits_all gen_ok hc (gens_start void) hl hm hf hs hp ho hi
  have f := Flow.steps hc gen_ok es (Good.start (gens_start void) c) (Flow.start void) hl he hf
  obtain ⟨p, h1, -⟩ := f.sp i
  have hz := (f.live i).lazy
  have hr : (((gens void).steps c es).src i).result = none := by
    cases hx : (((gens void).steps c es).src i).result with
    | none => rfl
    | some v =>
      have := (h1.waitsN (by rw [hw]; simp) (by rw [hx]; simp)).1
      rw [hz] at this; simp at this
  have hb : (((gens void).steps c es).src i).buffer = none := by
    cases hx : (((gens void).steps c es).src i).buffer with
    | none => rfl
    | some v => exact absurd hr (h1.buf v hx).1
  have hx : (((gens void).steps c es).src i).exc = none := by
    cases hx : (((gens void).steps c es).src i).exc with
    | none => rfl
    | some e =>
      have := h1.doneA (h1.exc e hx).2
      rw [hw] at this; simp at this
  unfold held
  rw [hr, hb, hx]; rfl

/-- Races of `n` generators, asked in turn. -/
def turn (n : Nat) : Cfg := { kind := .race, n := n, order := List.range n }

theorem turn_proper (n : Nat) : Proper (turn n) :=
  ⟨⟨List.nodup_range, fun i => by simp [turn], fun h => absurd rfl h⟩, rfl, fun _ => rfl, fun _ => rfl, rfl⟩

/-- Two generators: 0 is slow, 1 has yielded 5. The first race asks 0, which has nothing,
then 1: its value wins and 0 is let go. Generator 0 yields 7, which waits for the next
race and wins it. Generator 1 is not asked; it holds 6. -/
def loop : List (Ev gen) :=
  [.act 1 (.yield 5), .begin, .ask 0 true, .ret true, .ask 0 true, .intr, .ret true, .ret true, .ret true, .ret true, .next,
    .act 0 (.yield 7), .act 1 .run, .act 1 (.yield 6), .begin, .ask 0 true, .ret true, .next]

set_option maxRecDepth 20000 in
example : Legal (turn 2) (gens fun _ => true) loop ∧ Marked loop ∧ Eager loop ∧ ((gens fun _ => true).steps (turn 2) loop).fine ∧
    ((gens fun _ => true).steps (turn 2) loop).gave = [(1, .winner 0 (some 7)), (0, .winner 1 (some 5))] ∧
    handedTo ((gens fun _ => true).steps (turn 2) loop) 0 = [(0, .err .detached), (1, .val 5)] ∧
    held (((gens fun _ => true).steps (turn 2) loop).src 1) = [.val 6] := by
  refine ⟨by decide, by simp [Marked, loop, Ev.marked], by simp [Eager, loop, Ev.eager], by decide, by decide, by decide,
    by decide⟩

set_option maxRecDepth 20000 in
/-- The first race after it has asked both: it waits. -/
example : (((gens fun _ => true).steps (turn 2) [.begin, .ask 0 true, .ret true, .ask 0 true, .ret true]).comb.stack = []) ∧
    ((gens fun _ => true).steps (turn 2) [.begin, .ask 0 true, .ret true, .ask 0 true, .ret true]).comb.phase = .suspended ∧
    Legal (turn 2) (gens fun _ => true) [.begin, .ask 0 true, .ret true, .ask 0 true, .ret true] := by decide

/-- Three generators; 2 has yielded 6. While the race asks generator 1, generator 0 yields 5
and wins, and 1 is let go. The frame of the branch of 1 has destroyed itself; `done()` says
no; 2 is asked, and its value is thrown away (race.hpp:259-270). -/
def lost : List (Ev gen) :=
  [.act 2 (.yield 6), .begin, .ask 0 true, .ret true, .ask 0 true, .act 0 (.yield 5), .ret false, .intr, .ret false, .ret false,
    .ret false, .ret false, .ask 0 false, .ret false, .next]

set_option maxRecDepth 20000 in
/-- **C92** does not hold: the race gave 5, and 6 is nowhere. -/
theorem C92_violated : ¬C92 := by
  intro h
  have h1 : (0, given 2 (genOut (.val 6))) ∈ ((gens fun _ => true).steps (turn 3) lost).gave :=
    h (turn 3) (fun _ => true) lost (turn_proper 3) (by decide) (by decide) 0 2 (.val 6) (by decide) (by decide) (by decide)
  exact absurd h1 (by decide)

set_option maxRecDepth 20000 in
/-- In that run generator 0 comes first, and generator 2 after it. -/
example : (handedTo ((gens fun _ => true).steps (turn 3) lost) 0).getLast? = some (0, .val 5) ∧
    (2, .val 6) ∈ handedTo ((gens fun _ => true).steps (turn 3) lost) 0 := by decide

set_option maxRecDepth 20000 in
/-- Neither the race nor generator 2 has it any more. -/
example : ((gens fun _ => true).steps (turn 3) lost).gave = [(0, .winner 0 (some 5))] ∧
    held (((gens fun _ => true).steps (turn 3) lost).src 2) = [] ∧ outs 2 lost = [.val 6] := by decide

end Cobalt.Again
