import Verif.Mem.MonoLemmas
/-! Property C37: the arena for child coroutine frames. -/
namespace Cobalt.Mem

/-- A request list used in the examples: two blocks from the buffer, then a chunk
that also serves the next request, then a large block. -/
def monoRun : List Req :=
  [⟨32, 16, 0⟩, ⟨64, 16, 0⟩, ⟨200, 16, 4096⟩, ⟨16, 16, 0⟩, ⟨1000, 16, 8192⟩]

theorem monoRun_ok : NewOk 1024 256 (Arena.ofBuffer 1024 256) monoRun := by
  refine ⟨⟨⟨4, rfl⟩, by decide, by decide, by simp [Arena.regions, Arena.ofBuffer, Disjoint, Mono.memSize, Mono.ofBuffer, blockSize]⟩,
    ⟨⟨4, rfl⟩, by decide, by decide, ?_⟩, ⟨⟨4, rfl⟩, by decide, by decide, ?_⟩, ⟨⟨4, rfl⟩, by decide, by decide, ?_⟩,
    ⟨⟨4, rfl⟩, by decide, by decide, ?_⟩, trivial⟩ <;> (unfold Disjoint; decide)

/-- **C37** (disjointness, unconditional): blocks are pairwise disjoint and each lies
in one region the arena owns. -/
theorem C37_disjoint (base len : Nat) (rs : List Req) (hn : NewOk base len (Arena.ofBuffer base len) rs) :
    let a := (Arena.ofBuffer base len).steps rs
    (a.live.Pairwise fun x y => Disjoint x.addr x.size y.addr y.size) ∧
    ∀ b ∈ a.live, ∃ g ∈ a.regions base len, g.1 ≤ b.addr ∧ b.addr + b.size ≤ g.1 + g.2 := by
  intro a
  have h : MInv base len a := MInv.steps rs MInv.init hn
  refine ⟨h.sep, ?_⟩
  intro b hb
  obtain ⟨c, hc, hb⟩ := h.chunk hb
  refine ⟨(c.p, c.owned), by rw [← h.reg]; exact List.mem_map.2 ⟨c, hc, rfl⟩, hb.1, ?_⟩
  have := h.own c hc
  have := hb.2
  simp only; omega

example : NewOk 1024 256 (Arena.ofBuffer 1024 256) monoRun := monoRun_ok

example : ((Arena.ofBuffer 1024 256).steps monoRun).live.map (·.addr) = [8192, 4312, 4096, 1088, 1040] := by
  decide

/-- **C37 is violated**: a block from the buffer is not aligned as requested when
its size is not a multiple of the alignment. -/
theorem C37_misaligned :
    ∃ rs, NewOk 1024 256 (Arena.ofBuffer 1024 256) rs ∧
      ∃ b ∈ ((Arena.ofBuffer 1024 256).steps rs).live, ¬ b.align ∣ b.addr := by
  refine ⟨[⟨24, 16, 0⟩], ⟨⟨⟨4, rfl⟩, by decide, by decide, ?_⟩, trivial⟩, ⟨1032, 24, 16⟩, by decide, by decide⟩
  unfold Disjoint; decide

/-- **C37 is violated**: the bookkeeping block of a chunk can lie partly outside
the memory obtained for it (1031 bytes requested, 1072 obtained, the last six
bytes of the header are beyond them), and is misaligned. -/
theorem C37_header_out_of_bounds :
    ∃ rs, NewOk 1024 256 (Arena.ofBuffer 1024 256) rs ∧
      let a := (Arena.ofBuffer 1024 256).steps rs
      a.got = [(4096, 1072, 16)] ∧ a.headers = [4096 + 1038] ∧ 1072 < 1038 + blockSize ∧
      ¬ blockAlign ∣ 4096 + 1038 := by
  refine ⟨[⟨1031, 16, 4096⟩], ⟨⟨⟨4, rfl⟩, by decide, by decide, ?_⟩, trivial⟩, by decide, by decide, by decide, by decide⟩
  unfold Disjoint; decide

/-- **C37 is violated**: with a buffer of 1025 bytes a block handed out later
covers the first bytes of the bookkeeping block of its chunk. -/
theorem C37_header_overwritten :
    ∃ rs, NewOk 1024 1025 (Arena.ofBuffer 1024 1025) rs ∧
      let a := (Arena.ofBuffer 1024 1025).steps rs
      ∃ b ∈ a.live, ∃ x ∈ a.headers, ¬ Disjoint b.addr b.size x blockSize := by
  refine ⟨[⟨1016, 8, 65536⟩, ⟨16, 8, 4096⟩, ⟨1008, 8, 65536⟩],
    ⟨⟨⟨3, rfl⟩, by decide, by decide, ?_⟩, ⟨⟨3, rfl⟩, by decide, by decide, ?_⟩, ⟨⟨3, rfl⟩, by decide, by decide, ?_⟩, trivial⟩,
    ⟨4096 + 16 + 8, 1008, 8⟩, by decide, 4096 + 1026, by decide, ?_⟩
  · unfold Disjoint; decide
  · unfold Disjoint; decide
  · unfold Disjoint; decide
  · unfold Disjoint; decide

/-- **C37 is violated** for sizes near 2^64: `size + padding` wraps around, the
request "succeeds" without reserving anything. -/
theorem C37_size_wraps :
    ((Arena.ofBuffer 1024 256).steps [⟨2 ^ 64 - 8, 8, 0⟩, ⟨16, 8, 0⟩]).live =
      [⟨1032, 16, 8⟩, ⟨1032, 2 ^ 64 - 8, 8⟩] := by decide

/-- **C37** (bookkeeping, the part that holds). Full statement: for every buffer
and request. If the buffer size and all requested sizes are multiples of 4, the
bookkeeping blocks are aligned, inside owned memory and apart from all blocks. -/
theorem C37_bookkeeping_partial (base len : Nat) (rs : List Req)
    (hn : NewOk base len (Arena.ofBuffer base len) rs) (h4 : 4 ∣ len) (hs : ∀ r ∈ rs, 4 ∣ r.size) :
    let a := (Arena.ofBuffer base len).steps rs
    ∀ x ∈ a.headers, blockAlign ∣ x ∧
      (∃ g ∈ a.regions base len, g.1 ≤ x ∧ x + blockSize ≤ g.1 + g.2) ∧
      ∀ b ∈ a.live, Disjoint b.addr b.size x blockSize := by
  intro a x hx
  have h : MInv base len a := MInv.steps rs MInv.init hn
  have h' : HInv a := by
    refine HInv.steps rs ⟨?_, h4⟩ hn hs
    intro c hc x hx
    simp only [Arena.ofBuffer, Mono.ofBuffer, List.mem_singleton] at hc
    subst hc; simp at hx
  obtain ⟨c, hc, hcx⟩ := List.mem_filterMap.1 hx
  obtain ⟨e1, e2, e3, e4⟩ := h'.hdr c hc x hcx
  refine ⟨?_, ⟨(c.p, c.owned), ?_, ?_, ?_⟩, ?_⟩
  · rw [e1]; exact Nat.dvd_add e3 e4
  · rw [← h.reg]; exact List.mem_map.2 ⟨c, hc, rfl⟩
  · simp only; omega
  · simp only; omega
  · intro b hb
    obtain ⟨d, hd, hb⟩ := h.chunk hb
    have ho := h.own d hd
    by_cases hcd : (d.p, d.owned) = (c.p, c.owned) ∧ d.size = c.size
    · obtain ⟨e5, e6⟩ := hcd
      have e5 : d.p = c.p := congrArg Prod.fst e5
      have := hb.2
      left; omega
    · have hne : d ≠ c := fun e => hcd (by rw [e]; exact ⟨rfl, rfl⟩)
      have hp : (a.m.head :: a.m.older).Pairwise fun x y => Disjoint x.p x.owned y.p y.owned := by
        have := h.dis
        rw [← h.reg] at this
        exact List.pairwise_map.1 this
      have hdc : Disjoint d.p d.owned c.p c.owned := by
        obtain ⟨i, hi, rfl⟩ := List.mem_iff_getElem.1 hd
        obtain ⟨j, hj, rfl⟩ := List.mem_iff_getElem.1 hc
        rcases Nat.lt_trichotomy i j with hij | hij | hij
        · exact (List.pairwise_iff_getElem.1 hp) i j hi hj hij
        · subst hij; exact absurd rfl hne
        · have := (List.pairwise_iff_getElem.1 hp) j i hj hi hij
          simp only [Disjoint] at *; omega
      have := hb.1
      have := hb.2
      simp only [Disjoint] at *; omega

example : 4 ∣ 256 ∧ (∀ r ∈ monoRun, 4 ∣ r.size) ∧
    ((Arena.ofBuffer 1024 256).steps monoRun).headers = [9192, 4352] := by decide

/-- **C37** (alignment, the part that holds). Full statement: for all sizes and
alignments. If all requests have the same alignment (8 at least), the buffer is so
aligned and the sizes are multiples of it, all blocks are aligned. -/
theorem C37_aligned_partial (base len A : Nat) (rs : List Req)
    (hn : NewOk base len (Arena.ofBuffer base len) rs) (hb : A ∣ base)
    (hs : ∀ r ∈ rs, A ∣ r.size ∧ Mono.realAlign r.align = A) :
    ∀ b ∈ ((Arena.ofBuffer base len).steps rs).live, A ∣ b.addr := by
  have : AInv A ((Arena.ofBuffer base len).steps rs) := by
    refine AInv.steps rs ⟨Nat.le_refl _, ?_, by simp [Arena.ofBuffer]⟩ hn hs
    simpa [Arena.ofBuffer, Mono.ofBuffer, Chunk.used] using hb
  exact this.blk

example : 16 ∣ 1024 ∧ ∀ r ∈ [(⟨32, 16, 0⟩ : Req), ⟨64, 16, 0⟩, ⟨208, 16, 4096⟩, ⟨16, 16, 0⟩],
    16 ∣ r.size ∧ Mono.realAlign r.align = 16 := by decide

/-- **C37** (release): `release` returns every region obtained from `operator new`
exactly once, oldest first, with the size and alignment it was obtained with. -/
theorem C37_release (base len : Nat) (rs : List Req)
    (hs : ∀ r ∈ rs, r.size + Mono.realAlign r.align < 2 ^ 64) :
    let a := (Arena.ofBuffer base len).steps rs
    a.m.release.1 = a.got.reverse := by
  intro a
  have h : RInv a := by
    have : ∀ (rs : List Req) (a : Arena), RInv a → (∀ r ∈ rs, r.size + Mono.realAlign r.align < 2 ^ 64) →
        RInv (a.steps rs) := by
      intro rs
      induction rs with
      | nil => intro a h _; exact h
      | cons r rs ih =>
        intro a h hs
        exact ih _ (h.step r (hs r (by simp))) fun r' hr => hs r' (List.mem_cons_of_mem _ hr)
    exact this rs _ ⟨⟨(base, blockSize + len, 0), rfl⟩⟩ hs
  obtain ⟨b, hb⟩ := h.got
  have hr : ((a.m.head :: a.m.older).reverse).map (fun c => (c.p, blockSize + c.size, c.aligned)) =
      b :: a.got.reverse := by
    rw [List.map_reverse, hb]; simp
  unfold Mono.release
  dsimp only
  revert hr
  cases (a.m.head :: a.m.older).reverse with
  | nil => intro hr; simp at hr
  | cons x xs => intro hr; simp only [List.map_cons, List.cons.injEq] at hr; exact hr.2

example : ((Arena.ofBuffer 1024 256).steps monoRun).m.release.1 = [(4096, 296, 16), (8192, 1040, 16)] := by decide

/-- **C37**, exactly (bookkeeping): when a request makes the arena get a chunk, the bookkeeping block of the
chunk is aligned iff what the chunk offers is a multiple of 4, and it is inside the memory obtained iff the
remainder modulo 8 is at most 4. -/
theorem C37_bookkeeping_exact (a : Arena) (r : Req) (hm : blockAlign ∣ r.mem)
    (hg : (a.step r).m.older.length ≠ a.m.older.length) :
    ∃ x n, (a.step r).m.head.header = some x ∧ (a.step r).got = (r.mem, n, Mono.realAlign r.align) :: a.got ∧
      (blockAlign ∣ x ↔ 4 ∣ max a.m.chunkSize r.size) ∧
      (x + blockSize ≤ r.mem + n ↔ max a.m.chunkSize r.size % 8 ≤ 4) := by
  have hne : ¬ (r.size + (Mono.realAlign r.align - r.size % Mono.realAlign r.align)) % 2 ^ 64 ≤ a.m.head.avail := by
    intro h
    apply hg
    simp only [Arena.step, Mono.allocate]
    rw [if_pos h]
  refine ⟨r.mem + a.m.memSize r.size + a.m.memSize r.size % blockAlign,
    a.m.memSize r.size + (if a.m.memSize r.size % blockAlign = 0 then 0 else blockAlign - a.m.memSize r.size % blockAlign) +
      blockSize, ?_, ?_, ?_, ?_⟩
  · simp only [Arena.step, Mono.allocate]
    rw [if_neg hne]
  · simp only [Arena.step, Mono.allocate]
    rw [if_neg hne]
    simp only [List.length_cons]
    rw [if_neg (by omega)]
  · obtain ⟨k, hk⟩ := hm
    simp only [Mono.memSize, blockAlign] at *
    generalize max a.m.chunkSize r.size = M
    omega
  · have h8 : blockAlign = 8 := rfl
    have h40 : blockSize = 40 := rfl
    have hM : a.m.memSize r.size = max a.m.chunkSize r.size := rfl
    rw [← hM]
    by_cases h0 : a.m.memSize r.size % blockAlign = 0
    · rw [if_pos h0]; rw [h8] at h0 ⊢; omega
    · rw [if_neg h0]; rw [h8] at h0 ⊢; omega

/-- A chunk of 1031 bytes. -/
example : ((Arena.ofBuffer 1024 256).step ⟨1031, 16, 4096⟩).m.older.length ≠ (Arena.ofBuffer 1024 256).m.older.length ∧
    max (Arena.ofBuffer 1024 256).m.chunkSize 1031 % 8 = 7 := by decide

/-- **C37**, exactly (alignment): the first block from an aligned buffer in which it fits is aligned iff its size is a
multiple of the alignment. -/
theorem C37_aligned_exact (base len : Nat) (r : Req) (hb : Mono.realAlign r.align ∣ base)
    (hs : r.size + Mono.realAlign r.align < 2 ^ 64) (hf : r.size + Mono.realAlign r.align ≤ len) :
    ∃ b, ((Arena.ofBuffer base len).step r).live = [b] ∧ b.size = r.size ∧
      (Mono.realAlign r.align ∣ b.addr ↔ Mono.realAlign r.align ∣ r.size) := by
  have hA : 0 < Mono.realAlign r.align := by unfold Mono.realAlign blockAlign; omega
  generalize hAe : Mono.realAlign r.align = A at *
  have hmod := Nat.mod_lt r.size hA
  refine ⟨⟨base + (A - r.size % A), r.size, r.align⟩, ?_, rfl, ?_⟩
  · simp only [Arena.step, Arena.ofBuffer, Mono.ofBuffer, Mono.allocate, hAe]
    rw [if_pos]
    · simp
    · rw [Nat.mod_eq_of_lt (by omega)]
      omega
  · dsimp only
    rw [Nat.dvd_add_right hb]
    constructor
    · intro h
      by_cases h0 : r.size % A = 0
      · exact Nat.dvd_of_mod_eq_zero h0
      · have := Nat.le_of_dvd (by omega) h
        omega
    · intro h
      rw [Nat.mod_eq_zero_of_dvd h]
      simp

example : Mono.realAlign 16 ∣ 1024 ∧ ¬ Mono.realAlign 16 ∣ 24 ∧
    ((Arena.ofBuffer 1024 256).step ⟨24, 16, 0⟩).live = [⟨1032, 24, 16⟩] := by decide

end Cobalt.Mem
