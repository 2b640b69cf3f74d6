import Verif.File.Lemmas
/-!
# Properties of files
-/
namespace Cobalt.File

/-- Positioned access by the functions given, and `seek`, as they have to be. Offsets are
those a file can have. -/
def Positioned (readAt : F → Nat → Nat → Nat → F × Except Errno (List Nat))
    (writeAt : F → Nat → List Nat → Nat → F × Except Errno Nat)
    (seek : F → Int → Whence → F × Sought) : Prop :=
  (∀ f offset n k, offset < 2 ^ 63 → (readAt f offset n k).1.data = f.data ∧
    ∃ got, (readAt f offset n k).2 = .ok got ∧ ReadsAt f.data offset n k got) ∧
  (∀ f offset bytes k, offset < 2 ^ 63 →
    ∃ m, (writeAt f offset bytes k).2 = .ok m ∧
      WritesAt f.data offset bytes k (writeAt f offset bytes k).1.data m) ∧
  (∀ f offset w, Seeks f offset w (seek f offset w).1 (seek f offset w).2)

/-- **C42**, in full: with native files and without. -/
def C42 : Prop :=
  Positioned F.readAtNative F.writeAtNative F.seekNative ∧ Positioned F.readAt F.writeAt F.seek

/-- Native files read at the offset, whatever the position. -/
theorem C42_native_read (f : F) (offset n k : Nat) :
    (f.readAtNative offset n k).1 = f ∧
    ∃ got, (f.readAtNative offset n k).2 = .ok got ∧ ReadsAt f.data offset n k got :=
  ⟨rfl, _, rfl, read_spec { f with pos := offset } n k⟩

/-- Native files write at the offset, whatever the position. -/
theorem C42_native_write (f : F) (offset : Nat) (bytes : List Nat) (k : Nat) :
    (f.writeAtNative offset bytes k).1.pos = f.pos ∧
    ∃ m, (f.writeAtNative offset bytes k).2 = .ok m ∧
      WritesAt f.data offset bytes k (f.writeAtNative offset bytes k).1.data m :=
  ⟨rfl, _, rfl, write_spec { f with pos := offset } bytes k⟩

example : F.readAtNative { data := [10, 11, 12, 13], pos := 3 } 1 2 5
    = ({ data := [10, 11, 12, 13], pos := 3 }, .ok [11, 12]) := rfl

example : F.writeAtNative { data := [10, 11] } 3 [7, 8] 1 = ({ data := [10, 11, 0, 7] }, .ok 1) := rfl

theorem lseek_target (f : F) (offset : Int) (w : Whence) :
    f.lseek offset w.num = f.goto (target f offset w) := by
  cases w <;> simp [F.lseek, Whence.num, target]

/-- A `seek` of a native stream file goes to its target and reports it. -/
theorem C42_native_seek (f : F) (offset : Int) (w : Whence) (h : 0 ≤ target f offset w) :
    Seeks f offset w (f.seekNative offset w).1 (f.seekNative offset w).2 := by
  unfold Seeks F.seekNative
  rw [lseek_target]
  have hn : ¬ target f offset w < 0 := by omega
  simp only [F.goto, if_neg hn]
  refine ⟨trivial, by omega, _, rfl, by omega⟩

example : 0 ≤ target { data := [1, 2, 3], pos := 2 } (-1) .end_ ∧
    F.seekNative { data := [1, 2, 3], pos := 2 } (-1) .end_ = ({ data := [1, 2, 3], pos := 2 }, .at_ 2) := by
  decide

/-- An invalid `seek` of a native stream file throws instead of giving an error. -/
theorem C42_native_seek_throws (f : F) (offset : Int) (w : Whence) (h : target f offset w < 0) :
    f.seekNative offset w = (f, .throw .einval) := by
  unfold F.seekNative
  rw [lseek_target]
  simp only [F.goto, if_pos h]

example : target { data := [1, 2, 3] } (-1) .current < 0 := by decide

/-- The offsets for which the fallback works on a file. -/
def Lucky (f : F) (offset : Nat) : Prop :=
  offset = 0 ∨ (offset % 2 ^ 32 = 1 ∧ f.pos = offset) ∨
  ((offset % 2 ^ 32 = 2 ∨ offset % 2 ^ 32 = 4) ∧ f.data.length = offset)

theorem lucky_moves {f : F} {offset : Nat} (h : Lucky f offset) :
    f.lseek 0 (toInt offset) = .ok { f with pos := offset } := by
  rw [fallback_moves]
  rcases h with h | ⟨h, h'⟩ | ⟨h | h, h'⟩
  · subst h; rfl
  · rw [h]; simp [← h']
  · rw [h]; simp [h']
  · rw [h]
    have : f.data ≠ [] := by intro hd; rw [hd] at h'; simp at h'; omega
    simp [h', this]

/-- Otherwise it fails, or transfers at another place. -/
theorem unlucky_moves {f : F} {offset : Nat} (h : ¬ Lucky f offset) :
    (∃ e, f.lseek 0 (toInt offset) = .error e) ∨
    ∃ p, p ≠ offset ∧ f.lseek 0 (toInt offset) = .ok { f with pos := p } := by
  rw [fallback_moves]
  unfold Lucky at h
  generalize hw : offset % 2 ^ 32 = w at *
  rcases w with _ | _ | _ | _ | _ | w
  · exact Or.inr ⟨0, by omega, rfl⟩
  · exact Or.inr ⟨f.pos, by omega, rfl⟩
  · exact Or.inr ⟨f.data.length, by omega, rfl⟩
  · simp only
    split
    · exact Or.inl ⟨_, rfl⟩
    · exact Or.inr ⟨0, by omega, rfl⟩
  · simp only
    split
    · exact Or.inl ⟨_, rfl⟩
    · exact Or.inr ⟨f.data.length, by omega, rfl⟩
  · exact Or.inl ⟨_, rfl⟩

/-- **C42**, as far as it holds. Missing from the full statement: without native files the
offset has to be one for which the swapped arguments of `lseek` give the right position. -/
theorem C42_partial (f : F) (offset : Nat) (h : Lucky f offset) :
    (∀ n k, (f.readAt offset n k).1.data = f.data ∧
      ∃ got, (f.readAt offset n k).2 = .ok got ∧ ReadsAt f.data offset n k got) ∧
    (∀ bytes k, ∃ m, (f.writeAt offset bytes k).2 = .ok m ∧
      WritesAt f.data offset bytes k (f.writeAt offset bytes k).1.data m) := by
  constructor
  · intro n k
    unfold F.readAt
    rw [lucky_moves h]
    exact ⟨rfl, _, rfl, read_spec { f with pos := offset } n k⟩
  · intro bytes k
    unfold F.writeAt
    rw [lucky_moves h]
    exact ⟨_, rfl, write_spec { f with pos := offset } bytes k⟩

example : Lucky { data := [1, 2, 3], pos := 2 } 0 ∧ Lucky { data := [1, 2, 3], pos := 1 } 1 ∧
    Lucky { data := [1, 2] } 2 ∧ ¬ Lucky { data := [1, 2, 3], pos := 2 } 1 := by
  unfold Lucky; decide

/-- That condition is exact: for any other offset the fallback fails, or some byte written
does not get to where it belongs. -/
theorem C42_exact (f : F) (offset : Nat) : Lucky f offset ↔
    ∀ bytes k, ∃ m, (f.writeAt offset bytes k).2 = .ok m ∧
      WritesAt f.data offset bytes k (f.writeAt offset bytes k).1.data m := by
  constructor
  · exact fun h => (C42_partial f offset h).2
  · intro h
    apply Classical.byContradiction
    intro hn
    rcases unlucky_moves hn with ⟨e, he⟩ | ⟨p, hp, he⟩
    · obtain ⟨m, hm, _⟩ := h [] 0
      unfold F.writeAt at hm
      rw [he] at hm
      cases hm
    · obtain ⟨m, hm, hw⟩ := h [(f.data[p]?).getD 0 + 1] 1
      unfold F.writeAt at hm hw
      rw [he] at hm hw
      simp only [F.write, List.take_succ_cons, List.take_zero] at hm hw
      obtain ⟨h1, _, h3, h4⟩ := hw
      have hm1 : m = 1 := by simpa using h1
      subst hm1
      have hlen := patch_length f.data p [(f.data[p]?).getD 0 + 1]
      have hpl : p < (patch f.data p [(f.data[p]?).getD 0 + 1]).length := by
        rw [hlen]; simp only [List.length_singleton]; omega
      have hv := h4 p hpl
      rw [patch_getElem? _ _ _ _ (by rw [← hlen]; exact hpl), if_pos (by simp)] at hv
      simp only [Nat.sub_self, List.getElem?_cons_zero] at hv
      rw [if_neg (by omega)] at hv
      split at hv
      · rename_i hl
        rw [List.getElem?_eq_getElem hl] at hv
        simp at hv
      · simp at hv

/-- Without native files every `seek` that does not fail reports position 0; the position it
goes to is right. -/
theorem C42_seek_moves (f : F) (offset : Int) (w : Whence) :
    (target f offset w < 0 → f.seek offset w = (f, .error .einval)) ∧
    (0 ≤ target f offset w →
      ((f.seek offset w).1.pos : Int) = target f offset w ∧ (f.seek offset w).2 = .at_ 0) := by
  unfold F.seek
  rw [lseek_target]
  constructor
  · intro h; simp only [F.goto, if_pos h]
  · intro h
    have hn : ¬ target f offset w < 0 := by omega
    simp only [F.goto, if_neg hn]
    exact ⟨by omega, trivial⟩

/-- So what it reports is right only at the start of the file, and for errors. -/
theorem C42_seek_exact (f : F) (offset : Int) (w : Whence) :
    Seeks f offset w (f.seek offset w).1 (f.seek offset w).2 ↔ target f offset w ≤ 0 := by
  have ⟨h1, h2⟩ := C42_seek_moves f offset w
  unfold Seeks
  constructor
  · intro ⟨_, h⟩
    apply Classical.byContradiction
    intro hn
    rw [if_neg (by omega)] at h
    obtain ⟨_, p, hp, ht⟩ := h
    rw [(h2 (by omega)).2] at hp
    cases hp
    omega
  · intro h
    have hd : (f.seek offset w).1.data = f.data := by
      unfold F.seek
      rw [lseek_target]
      unfold F.goto
      split
      · rename_i h; split at h
        · rfl
        · cases h
      · rename_i h; split at h
        · cases h
        · cases h; rfl
    refine ⟨hd, ?_⟩
    split
    · rename_i hn
      rw [h1 hn]
      exact ⟨rfl, _, rfl⟩
    · rename_i hn
      obtain ⟨a, b⟩ := h2 (by omega)
      exact ⟨a, 0, b, by omega⟩

/-- **C42** is violated: without native files, writing one byte at offset 1 of a file that is
at position 3 overwrites the byte at 3. -/
theorem C42_violated : ¬ C42 := by
  intro h
  obtain ⟨m, hm, hw⟩ := h.2.2.1 { data := [10, 11, 12, 13, 14], pos := 3 } 1 [99] 1 (by omega)
  have hm' : m = 1 := hw.1
  subst hm'
  have := hw.2.2.2 3 (by decide)
  revert this
  decide

/-- Writing at offset 2³² goes to the start of the file. -/
theorem C42_violated_start (f : F) (b : Nat) (l : List Nat) (h : f.data = b :: l) :
    f.writeAt (2 ^ 32) [b + 1] 1 = ({ data := (b + 1) :: l, pos := 1 }, .ok 1) := by
  unfold F.writeAt
  rw [fallback_moves]
  simp [F.write, patch, h]

/-- Almost all offsets fail. -/
theorem C42_violated_fails (f : F) (offset n k : Nat) (h : 5 ≤ offset % 2 ^ 32) :
    f.readAt offset n k = (f, .error .einval) := by
  unfold F.readAt
  rw [fallback_moves]
  generalize offset % 2 ^ 32 = w at *
  rcases w with _ | _ | _ | _ | _ | w <;> first | omega | rfl

example : 5 ≤ 4096 % 2 ^ 32 := by decide

/-- A `seek` to 2 reports 0; and with native files a `seek` before the start throws. -/
theorem C42_violated_seek :
    F.seek { data := [1, 2, 3] } 2 .start = ({ data := [1, 2, 3], pos := 2 }, .at_ 0) ∧
    F.seekNative { data := [1, 2, 3] } (-1) .start = ({ data := [1, 2, 3] }, .throw .einval) := by
  decide

end Cobalt.File
