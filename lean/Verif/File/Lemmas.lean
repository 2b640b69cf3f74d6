import Verif.File.Spec
/-! # Lemmas about files -/
namespace Cobalt.File

theorem read_spec (f : F) (n k : Nat) : ReadsAt f.data f.pos n k (f.read n k).2 := by
  unfold ReadsAt F.read
  simp only [List.length_take, List.length_drop]
  refine ⟨trivial, fun i hi => ?_⟩
  rw [List.getElem?_take, List.getElem?_drop]
  rw [if_pos (by omega)]

theorem getElem?_pad (data : List Nat) (m i : Nat) (h : i < data.length + m) :
    (data ++ List.replicate m 0)[i]? = if i < data.length then data[i]? else some 0 := by
  rw [List.getElem?_append]
  split
  · rfl
  · rw [List.getElem?_replicate, if_pos (by omega)]

theorem patch_length (data : List Nat) (at_ : Nat) (bytes : List Nat) :
    (patch data at_ bytes).length = max data.length (at_ + bytes.length) := by
  unfold patch
  simp only [List.length_append, List.length_take, List.length_drop, List.length_replicate]
  omega

theorem patch_getElem? (data : List Nat) (at_ : Nat) (bytes : List Nat) (i : Nat)
    (h : i < max data.length (at_ + bytes.length)) :
    (patch data at_ bytes)[i]? =
      if at_ ≤ i ∧ i < at_ + bytes.length then bytes[i - at_]?
      else if i < data.length then data[i]? else some 0 := by
  unfold patch
  simp only
  have hl : (List.take at_ (data ++ List.replicate (at_ - data.length) 0)).length = at_ := by
    simp only [List.length_append, List.length_take, List.length_replicate]; omega
  rw [List.append_assoc, List.getElem?_append, hl]
  split
  · rename_i hi
    rw [if_neg (by omega), List.getElem?_take, if_pos hi, getElem?_pad _ _ _ (by omega)]
  · rename_i hi
    rw [List.getElem?_append]
    split
    · rename_i hb
      rw [if_pos (by omega)]
    · rename_i hb
      rw [if_neg (by omega), List.getElem?_drop]
      have : at_ + bytes.length + (i - at_ - bytes.length) = i := by omega
      rw [this, getElem?_pad _ _ _ (by omega)]

theorem write_spec (f : F) (bytes : List Nat) (k : Nat) :
    WritesAt f.data f.pos bytes k (f.write bytes k).1.data (f.write bytes k).2 := by
  unfold WritesAt F.write
  have hl : (bytes.take k).length = min k bytes.length := List.length_take ..
  cases hb : bytes.take k with
  | nil =>
    rw [hb] at hl
    simp only [List.length_nil] at hl
    simp only
    refine ⟨hl, fun _ => trivial, fun h => absurd h (by omega), fun i hi => ?_⟩
    rw [if_neg (by omega), if_pos hi]
  | cons b l =>
    rw [hb] at hl
    simp only [List.length_cons] at hl
    simp only
    refine ⟨hl, fun h => absurd h (by omega), fun _ => by rw [patch_length]; simp, fun i hi => ?_⟩
    rw [patch_length] at hi
    rw [patch_getElem? _ _ _ _ hi]
    simp only [List.length_cons]
    split
    · rename_i h
      rw [← hb, List.getElem?_take, if_pos (by omega)]
    · rfl

theorem toInt_cases (n : Nat) : (toInt n = ((n % 2 ^ 32 : Nat) : Int) ∧ n % 2 ^ 32 < 2 ^ 31) ∨
    (toInt n < 0 ∧ 2 ^ 31 ≤ n % 2 ^ 32) := by
  unfold toInt
  simp only
  split
  · left; constructor
    · omega
    · assumption
  · right
    have := Nat.mod_lt n (show 0 < 2 ^ 32 by omega)
    constructor <;> omega

/-- Where the fallback moves to for an offset: it depends on the lower half of the offset as
if that were a `whence`. -/
theorem fallback_moves (f : F) (offset : Nat) :
    f.lseek 0 (toInt offset) =
      match offset % 2 ^ 32 with
      | 0 => .ok { f with pos := 0 }
      | 1 => .ok f
      | 2 => .ok { f with pos := f.data.length }
      | 3 => if f.data = [] then .error .enxio else .ok { f with pos := 0 }
      | 4 => if f.data = [] then .error .enxio else .ok { f with pos := f.data.length }
      | _ => .error .einval := by
  have hc := toInt_cases offset
  generalize offset % 2 ^ 32 = w at *
  generalize toInt offset = t at *
  have hd : ((f.data.length : Int) ≤ 0) ↔ f.data = [] := by
    rw [← List.length_eq_zero_iff]; omega
  rcases w with _ | _ | _ | _ | _ | w
  · have : t = 0 := by omega
    subst this
    simp [F.lseek, F.goto]
  · have : t = 1 := by omega
    subst this
    have : ¬ ((f.pos : Int) < 0) := by omega
    simp [F.lseek, F.goto, this]
  · have : t = 2 := by omega
    subst this
    have : ¬ ((f.data.length : Int) < 0) := by omega
    simp [F.lseek, F.goto, this]
  · have : t = 3 := by omega
    subst this
    simp [F.lseek, F.goto, hd]
  · have : t = 4 := by omega
    subst this
    have : ¬ ((f.data.length : Int) < 0) := by omega
    simp [F.lseek, F.goto, hd, this]
  · have : t ≠ 0 ∧ t ≠ 1 ∧ t ≠ 2 ∧ t ≠ 3 ∧ t ≠ 4 := by omega
    simp [F.lseek, this]

end Cobalt.File
