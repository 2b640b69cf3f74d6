import Verif.Order.Lemmas
import Verif.Order.Spec
/-!
# C96: the order in which a race tries its awaitables

`race` tries every awaitable in an order in which each occurs once, every order is
possible, and each comes from exactly one sequence of draws: evenly drawn numbers
give evenly drawn orders. Awaitables are asked in this order. `left_race` asks from
left to right: one that is ready at once wins only if all on its left said they were
not.
-/
namespace Cobalt.Order
open Comb

/-- Whatever is drawn, every awaitable is tried, once. -/
theorem C96_all (left : Bool) {d : Nat → Nat} (hd : Draws d) (n : Nat) : (tries left d n).Perm (List.range n) :=
  tries_perm left hd n

example : tries false (fun k => k / 2) 5 = [1, 3, 4, 2, 0] ∧ Draws (fun k => k / 2) :=
  ⟨by decide, fun k => Nat.div_le_self k 2⟩

/-- Each order comes from exactly one sequence of draws. -/
theorem C96_even {l : List Nat} {n : Nat} (h : l.Perm (List.range n)) :
    ∃ d, Draws d ∧ tries false d n = l ∧ ∀ e, Draws e → tries false e n = l → ∀ k, k < n → e k = d k := by
  obtain ⟨hm, hl⟩ := moves_of_perm h
  obtain ⟨d, hd, e⟩ := shuffled_onto n hm
  refine ⟨d, hd, ?_, fun e' he hx => shuffled_inj he hd n ?_⟩
  · unfold tries; rw [e]; exact hl
  · funext j
    by_cases hj : j < n
    · have h1 : tries false d n = l := by unfold tries; rw [e]; exact hl
      have h2 := hx.trans h1.symm
      unfold tries at h2
      exact List.map_inj_left.1 h2 j (List.mem_range.2 hj)
    · rw [(shuffled_moves he n).id j (by omega), (shuffled_moves hd n).id j (by omega)]

example : [2, 0, 3, 1].Perm (List.range 4) := by decide

/-- Any awaitable may be the first to be asked, and it wins if it is ready then. -/
theorem C96_first {n i : Nat} (hi : i < n) (intr void : Nat → Bool) (allVoid ranged : Bool) (ct : Nat) :
    ∃ d, Draws d ∧ ∀ o x, Legal (race false d n intr void allVoid ranged ct) {} [.begin, .ready i o x] ∧
      ∀ es, Legal (race false d n intr void allVoid ranged ct) {} ([.begin, .ready i o x] ++ es) →
        (St.run (race false d n intr void allVoid ranged ct) ([.begin, .ready i o x] ++ es)).ub = false →
        (St.run (race false d n intr void allVoid ranged ct) ([.begin, .ready i o x] ++ es)).index = some i := by
  obtain ⟨d, hd, hl, -⟩ := C96_even (List.cons_perm_iff_perm_erase.2
    ⟨List.mem_range.2 hi, List.Perm.refl _⟩ : (i :: (List.range n).erase i).Perm (List.range n))
  refine ⟨d, hd, fun o x => ⟨⟨rfl, ?_, trivial⟩, fun es h hu => ?_⟩⟩
  · generalize hc : race false d n intr void allVoid ranged ct = c
    have ho : c.order = i :: (List.range n).erase i := by rw [← hc]; exact hl
    have : (St.step c {} .begin).stack = [.asking i] := by
      unfold St.step
      rw [if_neg (by simp [St.can])]
      dsimp only
      rw [if_neg (by simp [ho]), St.startNext]
      simp only [ho]
    simp [St.can, this]
  · have ha := All.run (race_ok false hd n intr void allVoid ranged ct) h hu
    rw [ha.hist.race rfl]
    rfl

example : ∃ d, Draws d ∧ tries false d 3 = [2, 0, 1] :=
  ⟨fun k => if k = 1 then 0 else if k = 2 then 0 else 0, fun k => by dsimp only; split <;> (try split) <;> omega, by decide⟩

/-- Awaitables are asked in the order given: before one is, all that come earlier
have been. -/
theorem C96_in_order {c : Cfg} (hc : c.Ok) {pre post : List Ev} {e : Ev} {i : Nat} (he : answers e = some i)
    (hl : Legal c {} (pre ++ e :: post)) {l r : List Nat}
    (ho : c.order = l ++ i :: r) {j : Nat} (hj : j ∈ l) : Asked pre j := by
  obtain ⟨hl1, hl2⟩ := legal_append hl
  have hs := head_of_answers he hl2.1
  have hu := defined_of_head hc hl1 hs
  rcases prior hc hl1 hu hs ho hj with h | h
  · exact ⟨_, (Front.run hc hl1 hu).waiting j h, rfl⟩
  · obtain ⟨e', he', o, hx⟩ := outcome_event h
    cases e' <;> simp only [Ev.ends, reduceCtorEq, Option.some.injEq, Prod.mk.injEq] at hx
    case ready => exact ⟨_, he', by simp [answers, hx.1]⟩
    case thrown => exact ⟨_, he', by simp [answers, hx.1]⟩
    case fin a b =>
      obtain ⟨p, q, rfl⟩ := List.append_of_mem he'
      obtain ⟨h1, h2⟩ := legal_append hl1
      have hcan := h2.1
      simp only [St.can, Bool.and_eq_true, beq_iff_eq] at hcan
      have hw := (Front.run hc h1 (ub_of_run hu)).waiting j (by rw [← hx.1]; exact hcan.1)
      exact ⟨_, List.mem_append_left _ hw, rfl⟩

/-- `left_race` asks from left to right. -/
theorem C96_left_to_right {d : Nat → Nat} (hd : Draws d) {n : Nat} {intr void : Nat → Bool} {allVoid ranged : Bool}
    {ct : Nat} {pre post : List Ev} {e : Ev} {i : Nat} (he : answers e = some i)
    (hl : Legal (race true d n intr void allVoid ranged ct) {} (pre ++ e :: post))
    {j : Nat} (hj : j < i) :
    Asked pre j := by
  have hi : i < n := answers_known (race_ok true hd n intr void allVoid ranged ct) he hl
  refine C96_in_order (race_ok true hd n intr void allVoid ranged ct) he hl
    (l := List.range i) (r := List.range' (i + 1) (n - i - 1)) ?_ (List.mem_range.2 hj)
  show List.range n = _
  rw [List.range_eq_range', List.range_eq_range']
  rw [show n = i + (1 + (n - i - 1)) by omega, ← List.range'_append_1, ← List.range'_append_1]
  simp [List.range'_one]

/-- One that is ready at once, or throws, wins only if all on its left said that
they were not ready. -/
theorem C96_leftmost {d : Nat → Nat} (hd : Draws d) {n : Nat} {intr void : Nat → Bool} {allVoid ranged : Bool}
    {ct : Nat} {pre post : List Ev} {e : Ev} {i : Nat} (he : answers e = some i) (hw : winner pre = none)
    (hl : Legal (race true d n intr void allVoid ranged ct) {} (pre ++ e :: post))
    {j : Nat} (hj : j < i) :
    Ev.notReady j ∈ pre := by
  obtain ⟨e', he', hx⟩ := C96_left_to_right hd he hl hj
  cases e' with
  | notReady a => simp only [answers, Option.some.injEq] at hx; rwa [← hx]
  | ready a o x =>
    exfalso
    have := List.mem_filterMap.2 ⟨_, he', (rfl : Ev.claims (.ready a o x) = some a)⟩
    unfold winner at hw
    rw [List.head?_eq_none_iff.1 hw] at this
    simp at this
  | thrown a o x =>
    exfalso
    have := List.mem_filterMap.2 ⟨_, he', (rfl : Ev.claims (.thrown a o x) = some a)⟩
    unfold winner at hw
    rw [List.head?_eq_none_iff.1 hw] at this
    simp at this
  | _ => simp [answers] at hx

/-- The second of three is ready. -/
abbrev second : List Ev := [.begin, .notReady 0, .ret false, .ready 1 (.ok 5) false]

example : Legal (race true id 3 (fun _ => true) (fun _ => false) false false 7) {} second ∧
    (St.run (race true id 3 (fun _ => true) (fun _ => false) false false 7) second).index = some 1 := by decide

/-- The same draws, but with the last one asked first. -/
example : Legal (race false (fun _ => 0) 3 (fun _ => true) (fun _ => false) false false 7) {}
    [.begin, .ready 2 (.ok 5) false] := by decide

end Cobalt.Order
