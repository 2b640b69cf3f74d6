import Verif.Mem.SboLemmas
/-! Properties C35 and C36: the small-buffer memory resource. -/
namespace Cobalt.Mem

/-- **C35**: whatever is requested and given back in whatever order, no two blocks
held at the same time overlap, those not from upstream lie inside the buffer the
resource was made with, and every block given back has gone to where it came
from. -/
theorem C35_disjoint (base len : Nat) (es : List MEv) (hl : Lawful (World.init base len) es) :
    let w := (World.init base len).steps es
    (w.live.Pairwise fun a b => Disjoint a.addr a.size b.addr b.size) ∧
    (∀ b ∈ w.live, b.up = false → base ≤ b.addr ∧ b.addr + b.size ≤ base + len) ∧
    w.misrouted = false := by
  intro w
  have h : Inv w := Inv.steps es _ (Inv.init base len) hl
  have hb : w.base = base ∧ w.len = len := World.steps_base es _
  have hin : ∀ b ∈ w.live, b.up = false → base ≤ b.addr ∧ b.addr + b.size ≤ base + len := by
    intro b hb' hu
    have h1 := h.inb b hb' hu
    have h2 := Blk.space_spec h hb'
    have h3 := h.lo
    have h4 := h.hi (by omega)
    rw [hb.1] at h3 h4
    rw [hb.2] at h4
    omega
  refine ⟨?_, hin, h.ok⟩
  refine List.Pairwise.imp_of_mem ?_ h.dis
  intro a b ha hb' hab
  have ho := h.out
  rw [hb.1, hb.2] at ho
  cases hu : a.up <;> cases hv : b.up
  · have := hab (by rw [hu, hv])
    rw [if_neg (by simp [hu])] at this
    have h1 := Blk.space_spec h ha
    have h2 := Blk.space_spec h hb'
    simp only [Disjoint] at *
    omega
  · have h1 := hin a ha hu
    have h2 := ho b hb' hv
    simp only [Disjoint] at *
    omega
  · have h1 := hin b hb' hv
    have h2 := ho a ha hu
    simp only [Disjoint] at *
    omega
  · have := hab (by rw [hu, hv])
    rw [if_pos hu] at this
    exact this

/-- Three blocks from a buffer of 100 bytes at the odd address 1001, one from
upstream, given back out of order, then the buffer is used again from the start. -/
def sboRun : List MEv :=
  [.alloc 10 8 0, .alloc 30 8 0, .alloc 40 8 5000, .free 1, .alloc 5 8 6000, .free 0, .free 1, .free 0,
   .alloc 60 8 0]

example : Lawful (World.init 1001 100) sboRun := by
  simp [sboRun, Lawful, World.init, Sbo.make, World.step, Sbo.allocate, Sbo.deallocate, alignAsMax, maxAlign,
    Disjoint]

example : ((World.init 1001 100).steps (sboRun.take 4)).live =
    [⟨5000, 40, 8, true⟩, ⟨1008, 10, 8, false⟩] ∧
    ((World.init 1001 100).steps sboRun).live = [⟨1008, 60, 8, false⟩] := by decide

/-- Outside C35's quantifier: an empty block requested when the buffer is used up
is taken from the end of the buffer and given back to upstream, which never
handed it out. -/
theorem C35_empty_block_misrouted :
    ∃ es, ((World.init 1024 16).steps es).misrouted = true :=
  ⟨[.alloc 16 8 0, .alloc 0 1 0, .free 0], by decide⟩

/-- **C36 is violated** for alignments above `alignof(std::max_align_t)`: the
alignment is ignored while there is room in the buffer. -/
theorem C36_overaligned :
    ∃ w : World, w = (World.init 1024 256).steps [.alloc 16 64 0, .alloc 64 64 0] ∧
      w.live = [⟨1040, 64, 64, false⟩, ⟨1024, 16, 64, false⟩] ∧ ¬ 64 ∣ 1040 :=
  ⟨_, rfl, by decide, by decide⟩

/-- **C36 is violated** for sizes within 15 of the maximum: rounding wraps around
to 0, the request "succeeds" without reserving anything and the next block has
the same address. -/
theorem C36_rounding_wraps :
    ∃ w : World, w = (World.init 1024 256).steps [.alloc (2 ^ 64 - 8) 8 0, .alloc 32 8 0] ∧
      w.live = [⟨1024, 32, 8, false⟩, ⟨1024, 2 ^ 64 - 8, 8, false⟩] :=
  ⟨_, rfl, by decide⟩

/-- **C36** (the part that holds). Full statement: the same for every alignment
and every size. For alignments that divide `alignof(std::max_align_t)` and sizes
that can be rounded up, blocks from the buffer are aligned as requested and have
the requested room to themselves up to the end of the buffer. -/
theorem C36_aligned_partial (base len : Nat) (es : List MEv) (hl : Lawful (World.init base len) es)
    (b : Blk) (hb : b ∈ ((World.init base len).steps es).live) (hu : b.up = false)
    (ha : b.align ∣ maxAlign) :
    b.align ∣ b.addr ∧ b.addr + b.size ≤ base + len := by
  have h : Inv ((World.init base len).steps es) := Inv.steps es _ (Inv.init base len) hl
  exact ⟨Nat.dvd_trans ha (h.inb b hb hu).2.2, ((C35_disjoint base len es hl).2.1 b hb hu).2⟩

example : ∃ b ∈ ((World.init 1001 100).steps sboRun).live, b.up = false ∧ b.align ∣ maxAlign :=
  ⟨⟨1008, 60, 8, false⟩, by decide⟩

/-- **C36**, exactly: an alignment is honoured for all blocks from the buffer, in every run whose sizes can be
rounded up, iff it divides `alignof(std::max_align_t)`. -/
theorem C36_exact (a : Nat) :
    (∀ base len es, Lawful (World.init base len) es → ∀ b ∈ ((World.init base len).steps es).live,
      b.up = false → b.align = a → a ∣ b.addr) ↔ a ∣ maxAlign := by
  constructor
  · intro h
    have hl : Lawful (World.init 16 16) [.alloc 1 a 0] := by
      simp [Lawful, World.init, maxAlign, Disjoint]
    exact h 16 16 [.alloc 1 a 0] hl ⟨16, 1, a, false⟩
      (by simp [World.steps, World.step, World.init, Sbo.make, Sbo.allocate, alignAsMax, maxAlign]) rfl rfl
  · intro h base len es hl b hb hu hba
    have := (C36_aligned_partial base len es hl b hb hu (by rw [hba]; exact h)).1
    rwa [hba] at this

end Cobalt.Mem
