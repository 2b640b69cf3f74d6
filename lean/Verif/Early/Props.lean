import Verif.Early.Order
/-!
# C105: what an operation takes when it completes early is returned

`ready` lets an operation complete before it is started. What it takes then must be returned by the await: once, and in
order. It is, except by `gather` and `join` of a range. They ask `ready` twice, and what was taken the first time is
overwritten.
-/
namespace Cobalt.Early

/-- **C105**, for awaits that ask once: whatever is in the sources, however the operations share them, and whatever
arrives later, nothing is lost and nothing comes twice. -/
theorem C105_kept_partial (fm : Form) (hf : fm ≠ .range) (src : Nat → List Nat) (of : Nat → Nat) (l : List Nat) (hn : l.Nodup)
    (vs : List (Nat × Nat)) : Kept fm src of l vs := by
  intro k
  refine (arrivals_have l hn fm k vs _ (await_wait src of l hn fm).1).trans ?_
  refine List.Perm.append_right _ ?_
  cases fm with
  | each => rw [each_have src of l hn k]
  | range => exact absurd rfl hf
  | race => exact race_have l hn l _ (fun i hi => ⟨hi, rfl⟩) hn (fun _ _ => rfl) k

/-- **C105**, exactly, for `gather` and `join` of a range: nothing is lost if and only if no source that is read has more
in it than there are operations on it. What arrives later makes no difference. -/
theorem C105_exact (src : Nat → List Nat) (of : Nat → Nat) (l : List Nat) (hn : l.Nodup) (vs : List (Nat × Nat)) :
    Kept .range src of l vs ↔ ∀ k, readers of l k = 0 ∨ (src k).length ≤ readers of l k := by
  have hp : ∀ k, ((run .range src of l vs).have l k).Perm
      ((St.await { src, of } l .range).have l k ++ (vs.filter fun p => p.1 == k).map (·.2)) := fun k =>
    arrivals_have l hn .range k vs _ (await_wait src of l hn .range).1
  constructor
  · intro h k
    have h1 := ((hp k).symm.trans (h k)).length_eq
    rw [range_have src of l hn k, put] at h1
    simp only [List.length_append, List.length_take, List.length_drop] at h1
    omega
  · intro h k
    refine (hp k).trans (List.Perm.append_right _ ?_)
    rw [range_have src of l hn k]
    rcases h k with h | h
    · rw [h]; simp
    · have h2 : (src k).length - readers of l k = 0 := by omega
      have h3 : (src k).drop (2 * readers of l k) = [] := List.drop_eq_nil_of_le (by omega)
      rw [h3, List.drop_eq_nil_of_le h, h2, List.take_of_length_le h]
      simp

/-- How much `gather` or `join` of a range loses from each source. -/
theorem C105_loss (src : Nat → List Nat) (of : Nat → Nat) (l : List Nat) (hn : l.Nodup) (vs : List (Nat × Nat)) (k : Nat) :
    ((run .range src of l vs).have l k).length + min (readers of l k) ((src k).length - readers of l k) =
      (put src vs k).length := by
  have h1 := (arrivals_have l hn .range k vs _ (await_wait src of l hn .range).1).length_eq
  show ((vs.foldl (fun (s : St) p => s.arrive .range p.1 p.2) _).have l k).length + _ = _
  rw [h1, range_have src of l hn k, put]
  simp only [List.length_append, List.length_take, List.length_drop]
  omega

/-- Three operations on a source with five values: two of them are lost. -/
example : readers (fun _ => 0) [0, 1, 2] 0 = 3 ∧ min 3 (5 - 3) = 2 := by decide

/-- **C105** is violated: one operation in a range, and two values in its source. The first is lost. -/
theorem C105_range_violated : ¬ Kept .range (fun _ => [7, 8]) (fun _ => 0) [0] [] := by
  rw [C105_exact _ _ _ (by simp)]
  intro h
  have := h 0
  revert this
  decide

example : (run .range (fun _ => [7, 8]) (fun _ => 0) [0] []).have [0] 0 = [8] := by decide
/-- The same operation by itself, or in a race. -/
example : (run .each (fun _ => [7, 8]) (fun _ => 0) [0] []).have [0] 0 = [7, 8] ∧
    (run .race (fun _ => [7, 8]) (fun _ => 0) [0] []).have [0] 0 = [7, 8] := by decide
/-- Two operations on one source and one on another, and a value that comes later. -/
example : (run .range (fun k => if k = 0 then [7] else []) (fun i => i / 2) [0, 1, 2] [(0, 8), (1, 9)]).out 1 = some 8 := by
  decide

/-- The order, too, is kept by `gather` and `join` with several arguments: operations on the same source return its values
in the order in which they were given, and what is left comes after that. -/
theorem C105_order_partial (src : Nat → List Nat) (of : Nat → Nat) (l : List Nat) (hn : l.Nodup) (vs : List (Nat × Nat))
    (k : Nat) : (run .each src of l vs).have l k = put src vs k := by
  show (vs.foldl (fun (s : St) p => s.arrive .each p.1 p.2) _).have l k = _
  rw [arrivals_ord l hn (by simp) k vs _ (each_ord src of l hn k), each_have src of l hn k]
  rfl

/-- For a range it is kept if and only if nothing is lost. -/
theorem C105_order_exact (src : Nat → List Nat) (of : Nat → Nat) (l : List Nat) (hn : l.Nodup) (vs : List (Nat × Nat)) :
    (∀ k, (run .range src of l vs).have l k = put src vs k) ↔ Kept .range src of l vs := by
  constructor
  · intro h k
    rw [h k]
  · intro h k
    have h1 := (C105_exact src of l hn vs).1 h k
    have hs : ∀ k, (St.await { src, of } l .range).have l k = _ := range_have src of l hn
    by_cases hz : readers of l k = 0
    · have ho : Ord (St.await { src, of } l .range) l k := by
        have hw := await_wait src of l hn .range
        have he : ofk of l k = [] := List.eq_nil_of_length_eq_zero hz
        have hq : ofk of (St.await { src, of } l .range).queue k = [] := by
          apply List.eq_nil_iff_forall_not_mem.2
          intro i hi
          have hi' := mem_ofk.1 hi
          have : i ∈ ofk of l k := mem_ofk.2 ⟨(hw.1.mem i hi'.1).1, hi'.2⟩
          rw [he] at this
          cases this
        refine ⟨⟨[], [], by rw [hw.2, he]; rfl, by simp, by simp, by rw [hw.2, hq]⟩, fun h => absurd (by rw [hw.2, hq]) h⟩
      show (vs.foldl (fun (s : St) p => s.arrive .range p.1 p.2) _).have l k = _
      rw [arrivals_ord l hn (by simp) k vs _ ho, hs, hz]
      simp [put]
    · have h2 : (src k).length ≤ readers of l k := by
        rcases h1 with h1 | h1
        · exact absurd h1 hz
        · exact h1
      show (vs.foldl (fun (s : St) p => s.arrive .range p.1 p.2) _).have l k = _
      have h3 : (src k).drop (2 * readers of l k) = [] := List.drop_eq_nil_of_le (by omega)
      rw [arrivals_ord l hn (by simp) k vs _ (range_ord src of l hn k h2), hs, h3, List.drop_eq_nil_of_le h2,
        show (src k).length - readers of l k = 0 by omega, List.take_of_length_le h2]
      simp [put]

example : readers (fun i => i % 2) [0, 1, 2, 3] 0 = 2 ∧ [5, 6].length ≤ 2 := by decide

/-- A race takes one value at most, even if all its operations could complete early. -/
theorem C105_race_one (src : Nat → List Nat) (of : Nat → Nat) (l : List Nat) (hn : l.Nodup) (vs : List (Nat × Nat)) :
    (l.filterMap (run .race src of l vs).out).length ≤ 1 := by
  have h0 : One (St.await { src, of } l .race) l := race_one l hn l _ (fun _ h => h) (fun _ _ => rfl)
  have hw := (await_wait src of l hn .race).1
  show (l.filterMap (vs.foldl (fun (s : St) p => s.arrive .race p.1 p.2) _).out).length ≤ 1
  generalize St.await { src, of } l .race = s at h0 hw
  induction vs generalizing s with
  | nil => exact h0.len
  | cons p vs ih => exact ih _ (h0.arrive hn hw p.1 p.2) (hw.arrive .race p.1 p.2)

example : (run .race (fun _ => [7, 8]) (fun i => i) [0, 1] [(0, 9)]).out 0 = some 7 ∧
    (run .race (fun _ => [7, 8]) (fun i => i) [0, 1] [(0, 9)]).out 1 = none := by decide

/-- Nobody is left out: while there is something in the source of an operation, it has returned something; or it is in a
race and another has. -/
theorem C105_served (fm : Form) (src : Nat → List Nat) (of : Nat → Nat) (l : List Nat) (hn : l.Nodup) (vs : List (Nat × Nat))
    (i : Nat) (hi : i ∈ l) (hs : (run fm src of l vs).src (of i) ≠ []) :
    (run fm src of l vs).out i ≠ none ∨ fm = .race ∧ ∃ j ∈ l, (run fm src of l vs).out j ≠ none := by
  have hw := await_wait src of l hn fm
  have hl := await_live src of l hn fm
  have key : ∀ (vs : List (Nat × Nat)) (s : St), Wait s l → Live s l fm → s.of = of →
      Live (vs.foldl (fun s p => s.arrive fm p.1 p.2) s) l fm ∧ (vs.foldl (fun s p => s.arrive fm p.1 p.2) s).of = of := by
    intro vs
    induction vs with
    | nil => intro s _ h ho; exact ⟨h, ho⟩
    | cons p vs ih => intro s w h ho; exact ih _ (w.arrive fm p.1 p.2) (h.arrive w p.1 p.2) ((arrive_of s fm p.1 p.2).trans ho)
  obtain ⟨h1, h2⟩ := key vs _ hw.1 hl hw.2
  rcases h1 with h1 | h1
  · exact .inr h1
  · refine .inl fun hc => hs ?_
    have h3 := (h1 i hi hc).2
    rw [h2] at h3
    exact h3

example : (run .range (fun _ => []) (fun i => i) [0, 1] [(1, 4), (1, 5)]).src 1 = [5] ∧
    (run .range (fun _ => []) (fun i => i) [0, 1] [(1, 4), (1, 5)]).out 1 = some 4 := by decide

end Cobalt.Early
