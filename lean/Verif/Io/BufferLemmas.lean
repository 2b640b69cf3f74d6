import Verif.Io.BufferSpec
/-! Helper lemmas for `BufferProps`. -/
namespace Cobalt.Io

@[simp] theorem Buf.length_cells (b : Buf) : b.cells.length = b.size := by
  simp [Buf.cells]

theorem Buf.cells_advance (b : Buf) (n : Nat) : (b.advance n).cells = b.cells.drop n := by
  apply List.ext_getElem
  · simp [Buf.advance]; omega
  · intro i h1 h2
    simp [Buf.advance] at h1
    simp [Buf.cells, Buf.advance]
    omega

theorem skipIdx_le (t : List Buf) (n : Nat) : (skipIdx t n).1 ≤ t.length := by
  induction t generalizing n with
  | nil => simp [skipIdx]
  | cons b bs ih =>
    simp only [skipIdx]; split
    · have := ih (n - b.size); simp; omega
    · simp

theorem skipIdx_spec (t : List Buf) (n : Nat) :
    ((t.map Buf.cells).flatten).drop n =
      match t[(skipIdx t n).1]? with
      | none => []
      | some b => (b.advance (skipIdx t n).2).cells ++
          ((t.drop ((skipIdx t n).1 + 1)).map Buf.cells).flatten := by
  induction t generalizing n with
  | nil => simp [skipIdx]
  | cons b bs ih =>
    by_cases h : n > b.size
    · simp only [skipIdx, if_pos h, List.map_cons, List.flatten_cons, List.getElem?_cons_succ,
        List.drop_succ_cons]
      rw [List.drop_append, List.drop_eq_nil_of_le (by simp; omega)]
      simp only [Buf.length_cells, List.nil_append, ih (n - b.size)]
    · simp only [skipIdx, if_neg h, List.map_cons, List.flatten_cons, List.getElem?_cons_zero,
        List.drop_succ_cons, List.drop_zero]
      rw [List.drop_append, Buf.cells_advance]
      have : n - b.cells.length = 0 := by simp; omega
      rw [this]; simp

theorem Seq.at_eq (s : Seq) (k : Nat) :
    s.at k = { head := s.head, tail := s.tail, offset := BitVec.ofNat 64 k + npos } := by
  induction k with
  | zero => simp [Seq.at, Seq.begin]
  | succ k ih =>
    simp only [Seq.at, ih, Iter.inc, Iter.mk.injEq, true_and]
    rw [BitVec.add_assoc, BitVec.add_comm npos, ← BitVec.add_assoc, ← BitVec.ofNat_add]

theorem at_shift (i j : Nat) : BitVec.ofNat 64 i + npos + BitVec.ofInt 64 ((j : Int) - i)
    = BitVec.ofNat 64 j + npos := by
  have h : ∀ k : Nat, BitVec.ofNat 64 k = BitVec.ofInt 64 k := fun k => (BitVec.ofInt_natCast ..).symm
  rw [BitVec.add_assoc, BitVec.add_comm npos, ← BitVec.add_assoc, h, h, ← BitVec.ofInt_add]
  congr 2; omega

theorem at_pred (k : Nat) : BitVec.ofNat 64 (k + 1) + npos - 1#64 = BitVec.ofNat 64 k + npos := by
  rw [BitVec.ofNat_add, BitVec.add_assoc, BitVec.add_comm _ npos, ← BitVec.add_assoc,
    BitVec.add_sub_cancel]

theorem npos_toNat : npos.toNat = 18446744073709551615 := by decide

theorem at_toNat (k : Nat) (hk : k < 2 ^ 63) :
    (BitVec.ofNat 64 k + npos).toNat = if k = 0 then 18446744073709551615 else k - 1 := by
  rw [BitVec.toNat_add, npos_toNat, BitVec.toNat_ofNat]
  by_cases h : k = 0
  · subst h; decide
  · rw [if_neg h]; omega

theorem at_toInt (k : Nat) (hk : k < 2 ^ 63) :
    (BitVec.ofNat 64 k + npos).toInt = (k : Int) - 1 := by
  rw [BitVec.toInt_eq_toNat_cond, at_toNat k hk]
  by_cases h : k = 0
  · subst h; decide
  · rw [if_neg h, if_pos (by omega)]; omega

theorem at_eq_npos (k : Nat) (hk : k < 2 ^ 63) : BitVec.ofNat 64 k + npos = npos ↔ k = 0 := by
  rw [← BitVec.toNat_inj, at_toNat k hk, npos_toNat]
  by_cases h : k = 0
  · simp [h]
  · rw [if_neg h]; omega

end Cobalt.Io
