import Verif.Mem.FrameModel
/-! Property C38: coroutine frames go back to where they came from. -/
namespace Cobalt.Mem.Frame

/-- What has to hold of a pair of `operator new`/`operator delete` for one frame of
`size` bytes in the block at `p`: the frame lies in the block and is aligned when
the block is, and after the coroutine ran (it may have changed any byte of the
frame, and anything outside the block) the delete goes to the same resource, with
the same pointer and number of bytes. -/
def RoundTrip (pl : Plat) (who size p : Nat) (n : New) (del : Memory → Option Del) : Prop :=
  p ≤ n.frame ∧ n.frame + size ≤ p + n.bytes ∧ (pl.alignMax ∣ p → pl.alignMax ∣ n.frame) ∧
  ∀ m : Memory, (∀ x, p ≤ x → x < p + n.bytes → ¬ (n.frame ≤ x ∧ x < n.frame + size) → m x = n.mem x) →
    del m = some ⟨who, p, n.bytes⟩

theorem read_of {m : Memory} {a n : Nat} {o : Obj} (hn : 0 < n) (h : ∀ i, i < n → m (a + i) = some (o, i)) :
    m.read a n = some o := by
  unfold Memory.read
  have h0 := h 0 hn
  simp only [Nat.add_zero] at h0
  rw [h0]
  simp only
  rw [if_pos h]

theorem write_at {m : Memory} {a n : Nat} {o : Obj} {i : Nat} (h : i < n) :
    m.write a n o (a + i) = some (o, i) := by
  unfold Memory.write
  rw [if_pos (by omega)]
  simp

theorem write_off {m : Memory} {a n : Nat} {o : Obj} {x : Nat} (h : ¬ (a ≤ x ∧ x < a + n)) :
    m.write a n o x = m x := by
  unfold Memory.write; rw [if_neg h]

theorem units_ge {pl : Plat} (h : 0 < pl.maxAlignT) (n : Nat) : n ≤ units pl n * pl.maxAlignT := by
  unfold units
  have := Nat.div_add_mod n pl.maxAlignT
  have := Nat.mod_lt n h
  split
  · rw [Nat.add_mul, Nat.one_mul, Nat.mul_comm]; omega
  · rw [Nat.add_zero, Nat.mul_comm]; omega

theorem dvd_units {pl : Plat} (h : pl.Ok) (k : Nat) : pl.alignMax ∣ k * pl.maxAlignT :=
  Nat.dvd_trans h.align ⟨k, Nat.mul_comm _ _⟩

theorem Plat.Ok.x64 : Frame.x64.Ok := ⟨by decide, by decide, by decide, by decide⟩

/-- **C38**, frames from a memory resource, sized deallocation. -/
theorem C38_resource_sized (pl : Plat) (hpl : pl.Ok) (who size p : Nat) (m : Memory) :
    RoundTrip pl who size p (resNewSized pl who size p m) (resDelSized pl (p + pl.maxAlignT) size) := by
  have hp := hpl.ptr
  refine ⟨by simp [resNewSized], by simp only [resNewSized]; omega, fun h => Nat.dvd_add h hpl.align, ?_⟩
  intro m' hm
  have hr : m'.read p pl.ptr = some (.res who) := by
    refine read_of hp.1 fun i hi => ?_
    rw [hm _ (by omega) (by simp only [resNewSized]; omega) (by simp only [resNewSized]; omega)]
    exact write_at hi
  unfold resDelSized
  simp only [Nat.add_sub_cancel, hr]
  rfl

/-- **C38**, frames from a memory resource, without sized deallocation; also the
frames of composed operations. -/
theorem C38_resource (pl : Plat) (hpl : pl.Ok) (who size p : Nat) (m : Memory) :
    RoundTrip pl who size p (resNew pl who size p m) (resDel pl (resNew pl who size p m).frame) := by
  have hp := hpl.ptr
  have hb := units_ge hpl.pos (pl.ptr + pl.sizeT)
  refine ⟨by simp [resNew], by simp only [resNew]; omega, fun h => Nat.dvd_add h (dvd_units hpl _), ?_⟩
  intro m' hm
  have hr : m'.read p (pl.ptr + pl.sizeT) = some (.pair who size) := by
    refine read_of (by omega) fun i hi => ?_
    rw [hm _ (by omega) (by simp only [resNew, blockUnits]; omega) (by simp only [resNew, blockUnits]; omega)]
    exact write_at hi
  unfold resDel
  simp only [resNew, Nat.add_sub_cancel, hr]

/-- **C38**, frames from an allocator, sized deallocation, provided the rebound
allocator is not larger than what is reserved for the original one. -/
theorem C38_allocator_sized (pl : Plat) (hpl : pl.Ok) (sA sR who size p : Nat) (m : Memory)
    (hs : 0 < sR) (hA : sR ≤ units pl sA * pl.maxAlignT) :
    RoundTrip pl who size p (allocNewSized pl sA sR who size p m) (allocDelSized pl sA sR p size) := by
  have hb := units_ge hpl.pos size
  refine ⟨Nat.le_refl _, by simp only [allocNewSized, Nat.add_mul]; omega, id, ?_⟩
  intro m' hm
  have hr : m'.read (p + units pl size * pl.maxAlignT) sR = some (.alloc who) := by
    refine read_of hs fun i hi => ?_
    rw [hm _ (by omega) (by simp only [allocNewSized, Nat.add_mul]; omega) (by simp only [allocNewSized]; omega)]
    exact write_at hi
  unfold allocDelSized
  simp only [hr, allocNewSized, Nat.add_comm]

/-- **C38**, frames from an allocator, without sized deallocation. -/
theorem C38_allocator (pl : Plat) (hpl : pl.Ok) (sA sR who size p : Nat) (m : Memory)
    (hs : 0 < sR) (hA : sR ≤ units pl sA * pl.maxAlignT) :
    RoundTrip pl who size p (allocNew pl sA sR who size p m)
      (allocDel pl sA sR (allocNew pl sA sR who size p m).frame) := by
  have hb := units_ge hpl.pos size
  have hz := units_ge hpl.pos pl.sizeT
  have hT := hpl.sizeT
  refine ⟨by simp [allocNew], by simp only [allocNew, Nat.add_mul]; omega,
    fun h => Nat.dvd_add h (dvd_units hpl _), ?_⟩
  intro m' hm
  have e1 : p + (units pl sA + units pl pl.sizeT) * pl.maxAlignT - units pl pl.sizeT * pl.maxAlignT =
      p + units pl sA * pl.maxAlignT := by rw [Nat.add_mul]; omega
  have e2 : p + (units pl sA + units pl pl.sizeT) * pl.maxAlignT - units pl sA * pl.maxAlignT -
      units pl pl.sizeT * pl.maxAlignT = p := by rw [Nat.add_mul]; omega
  have hr1 : m'.read (p + units pl sA * pl.maxAlignT) pl.sizeT = some (.num (units pl size)) := by
    refine read_of hT.1 fun i hi => ?_
    rw [hm _ (by omega) (by simp only [allocNew, Nat.add_mul]; omega)
      (by simp only [allocNew, Nat.add_mul]; omega)]
    exact write_at hi
  have hr2 : m'.read p sR = some (.alloc who) := by
    refine read_of hs fun i hi => ?_
    rw [hm _ (by omega) (by simp only [allocNew, Nat.add_mul]; omega)
      (by simp only [allocNew, Nat.add_mul]; omega)]
    simp only [allocNew]
    rw [write_off (by omega)]
    exact write_at hi
  unfold allocDel
  simp only [allocNew, e1, e2, hr1, hr2]
  congr 3
  omega

example : Frame.x64.Ok ∧ 0 < 24 ∧ 24 ≤ units x64 24 * x64.maxAlignT := ⟨.x64, by decide, by decide⟩

/-- A frame of 100 bytes at 4096 with an allocator of 24 bytes: 192 bytes are
requested; with a zeroed frame the same 192 bytes go back to allocator 7. -/
example :
    let n := allocNew x64 24 24 7 100 4096 (fun _ => none)
    n.bytes = 192 ∧ n.frame = 4160 ∧
    allocDel x64 24 24 n.frame (fun x => if 4160 ≤ x ∧ x < 4260 then none else n.mem x) =
      some ⟨7, 4096, 192⟩ := by decide

/-- **C38**, the frame of `co_main`, sized deallocation. -/
theorem C38_main_sized (pl : Plat) (who size p : Nat) (m : Memory) :
    RoundTrip pl who size p (mainNewSized size p m) (fun _ => mainDelSized who p size) :=
  ⟨Nat.le_refl _, Nat.le_refl _, id, fun _ _ => rfl⟩

/-- **C38 is violated** for the frame of `co_main` without sized deallocation:
whatever the memory holds, the delete never returns the block that was obtained,
and if the header is left as it was obtained the size read is indeterminate. -/
theorem C38_main_unsized (pl : Plat) (hpl : pl.Ok) (who size p : Nat) (m : Memory) :
    let n := mainNew pl size p m
    (∀ m' : Memory, mainDel pl who n.frame m' ≠ some ⟨who, p, n.bytes⟩) ∧
    (m p = none → mainDel pl who n.frame n.mem = none) := by
  have hT := hpl.sizeT
  have hh : pl.sizeT ≤ mainHeader pl := Nat.le_max_right ..
  refine ⟨fun m' => ?_, fun h => ?_⟩
  · unfold mainDel
    split
    · simp only [mainNew, ne_eq, Option.some.injEq, Del.mk.injEq, not_and]
      intro _ h; omega
    · simp
  · unfold mainDel
    simp only [mainNew, Nat.add_sub_cancel]
    unfold Memory.read
    rw [h]

/-- **C38 is violated** for allocators whose rebound type is larger than the room
reserved for the original: the stored allocator reaches beyond the block. -/
theorem C38_larger_rebind :
    ∃ sA sR, let n := allocNewSized x64 sA sR 7 100 4096 (fun _ => none)
      ∃ x, 4096 + n.bytes ≤ x ∧ n.mem x ≠ none :=
  ⟨8, 40, 4096 + 160, by decide, by decide⟩

end Cobalt.Mem.Frame
