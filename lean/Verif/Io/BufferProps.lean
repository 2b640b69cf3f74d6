import Verif.Io.BufferLemmas
/-!
# Properties C39 and C40: buffer sequences

The specification of a sequence is the list of byte addresses it covers
(`Seq.cells`), and, for iteration, the plain list `head :: tail`.
-/
namespace Cobalt.Io

/-- **C39** `seq += n` is defined for every sequence and every `n`, and removes
exactly the first `n` bytes (all of them if there are fewer). -/
theorem C39_drop_bytes (s : Seq) (n : Nat) :
    ∃ s', s.advance n = some s' ∧ s'.cells = s.cells.drop n := by
  unfold Seq.advance
  split
  · next h =>
    refine ⟨_, rfl, ?_⟩
    simp only [Seq.cells, Buf.cells_advance]
    rw [List.drop_append_of_le_length (by simp; omega)]
  · next h =>
    have hdrop : s.cells.drop n =
        ((s.tail.map Buf.cells).flatten).drop (n - s.head.size) := by
      simp only [Seq.cells]
      rw [List.drop_append, List.drop_eq_nil_of_le (by simp; omega)]
      simp
    rw [hdrop, skipIdx_spec]
    have hle := skipIdx_le s.tail (n - s.head.size)
    generalize hr : skipIdx s.tail (n - s.head.size) = r at *
    by_cases hlen : r.1 = s.tail.length
    · refine ⟨{}, by simp [hlen], ?_⟩
      simp [hlen, Seq.cells, Buf.cells]
    · have hlt : r.1 < s.tail.length := by omega
      have hne : s.tail ≠ [] := by intro h0; simp [h0] at hlt
      simp [hlen, hne, List.getElem?_eq_getElem hlt, Seq.cells]

/-- The number of bytes left after `seq += n`. -/
theorem C39_drop_size (s : Seq) (n : Nat) :
    ∃ s', s.advance n = some s' ∧ s'.cells.length = s.cells.length - n := by
  obtain ⟨s', h1, h2⟩ := C39_drop_bytes s n
  exact ⟨s', h1, by simp [h2]⟩

/-- A sequence made from a span covers the bytes of its buffers, each once. -/
theorem C39_span (bs : List Buf) : (Seq.ofSpan bs).cells = (bs.map Buf.cells).flatten := by
  cases bs <;> simp [Seq.ofSpan, Seq.cells, Buf.cells]

-- Non-trivial instance: three buffers, one empty, cut inside the last.
example : ({ head := ⟨10, 2⟩, tail := [⟨50, 0⟩, ⟨30, 3⟩] } : Seq).advance 3
    = some { head := ⟨31, 2⟩, tail := [] } := by decide
example : ({ head := ⟨10, 2⟩, tail := [⟨50, 0⟩, ⟨30, 3⟩] } : Seq).cells
    = [10, 11, 30, 31, 32] := by decide

/-- **C40** (visiting) the iterator `k` steps after `begin()` refers to buffer
number `k` of the sequence, for every `k` below the buffer count, and after
`buffer_count()` steps the iterator equals `end()`, but not earlier. -/
theorem C40_visits_all (s : Seq) (hs : s.bufferCount < 2 ^ 63) :
    (∀ k, k < s.bufferCount → (s.at k).deref = (s.head :: s.tail)[k]?) ∧
    (∀ k, k ≤ s.bufferCount → ((s.at k).eq s.end = true ↔ k = s.bufferCount)) := by
  simp only [Seq.bufferCount] at *
  constructor
  · intro k hk
    rw [Seq.at_eq]
    simp only [Iter.deref, at_eq_npos k (by omega), at_toNat k (by omega)]
    cases k with
    | zero => simp
    | succ k => simp
  · intro k hk
    rw [Seq.at_eq]
    simp only [Iter.eq, Seq.end, BEq.rfl, Bool.true_and, beq_iff_eq]
    rw [← BitVec.toNat_inj, at_toNat k (by omega), BitVec.toNat_ofNat]
    split <;> omega

/-- **C40** (random access) distance, advance, indexing, decrement and equality
all agree with positions. -/
theorem C40_random_access (s : Seq) (hs : s.bufferCount < 2 ^ 63) (i j : Nat)
    (hi : i ≤ s.bufferCount) (hj : j ≤ s.bufferCount) :
    (s.at j).distance (s.at i) = (j : Int) - i ∧
    (s.at i).add ((j : Int) - i) = s.at j ∧
    (s.at j).sub ((j : Int) - i) = s.at i ∧
    (j < s.bufferCount → (s.at i).index ((j : Int) - i) = (s.head :: s.tail)[j]?) ∧
    (s.at (i + 1)).dec = s.at i ∧
    ((s.at i).eq (s.at j) = true ↔ i = j) := by
  simp only [Seq.bufferCount] at *
  simp only [Seq.at_eq]
  refine ⟨?_, ?_, ?_, ?_, ?_, ?_⟩
  · simp only [Iter.distance, at_toInt i (by omega), at_toInt j (by omega)]; omega
  · simp only [Iter.add, at_shift]
  · have := at_shift i j
    simp only [Iter.sub, Iter.mk.injEq, true_and]
    rw [← this, BitVec.add_sub_cancel]
  · intro hlt
    simp only [Iter.index, at_shift, at_eq_npos j (by omega), at_toNat j (by omega)]
    cases j with
    | zero => simp
    | succ j => simp
  · simp only [Iter.dec, at_pred]
  · simp only [Iter.eq, BEq.rfl, Bool.true_and, beq_iff_eq]
    rw [← BitVec.toNat_inj, at_toNat i (by omega), at_toNat j (by omega)]
    split <;> split <;> omega

example : ({ head := ⟨10, 2⟩, tail := [⟨50, 0⟩, ⟨30, 3⟩] } : Seq).bufferCount = 3 := by decide

/-- **C40 fails** for the ordering: `begin()` compares *greater* than `end()` on
every sequence shorter than `2^64 - 1`, because the begin offset is the largest
`size_t`. (buffer.hpp:118 with 195-199.) -/
theorem C40_order_violated (s : Seq) (hs : s.bufferCount < 2 ^ 63) :
    s.end.lt s.begin = true ∧ s.begin.lt s.end = false := by
  simp only [Seq.bufferCount] at hs
  simp only [Iter.lt, Seq.end, Seq.begin, BitVec.ult, npos_toNat, BitVec.toNat_ofNat,
    decide_eq_true_eq, decide_eq_false_iff_not]
  omega

/-- **C40**, what holds of the ordering: it agrees with positions for every pair
of iterators other than `begin()`. Missing for the full property: the iterator
equal to `begin()`, see `C40_order_violated`. -/
theorem C40_order_partial (s : Seq) (hs : s.bufferCount < 2 ^ 63) (i j : Nat)
    (hi : i ≤ s.bufferCount) (hj : j ≤ s.bufferCount) (hi0 : 0 < i) (hj0 : 0 < j) :
    (s.at i).lt (s.at j) = true ↔ i < j := by
  simp only [Seq.bufferCount] at *
  simp only [Seq.at_eq, Iter.lt, BitVec.ult, at_toNat i (by omega), at_toNat j (by omega),
    decide_eq_true_eq]
  split <;> split <;> omega

example : ∃ s : Seq, s.bufferCount < 2 ^ 63 ∧ 1 ≤ s.bufferCount ∧ 2 ≤ s.bufferCount :=
  ⟨{ head := ⟨10, 2⟩, tail := [⟨30, 3⟩] }, by decide⟩

/-- **C40**, exactly: the ordering of two iterators agrees with their positions iff neither or both equal
`begin()`. -/
theorem C40_order_exact (s : Seq) (hs : s.bufferCount < 2 ^ 63) (i j : Nat)
    (hi : i ≤ s.bufferCount) (hj : j ≤ s.bufferCount) :
    ((s.at i).lt (s.at j) = true ↔ i < j) ↔ (i = 0 ↔ j = 0) := by
  simp only [Seq.bufferCount] at *
  simp only [Seq.at_eq, Iter.lt, BitVec.ult, at_toNat i (by omega), at_toNat j (by omega),
    decide_eq_true_eq]
  split <;> split <;> omega

/-- `visit` hands on every byte: the single head buffer only when it is the
whole sequence. -/
theorem C40_visit_complete (s : Seq) :
    (match s.visit with
      | .whole s' => s'.cells
      | .single b => b.cells) = s.cells := by
  by_cases h : s.bufferCount > 1
  · simp [Seq.visit, h]
  · have ht : s.tail = [] := List.eq_nil_of_length_eq_zero (by simp only [Seq.bufferCount] at h; omega)
    simp [Seq.visit, h, Seq.cells, ht]

end Cobalt.Io
