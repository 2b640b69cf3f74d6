import Verif.Mem.MonoSpec
/-! Invariant of the arena. -/
namespace Cobalt.Mem

/-- The part of a chunk that is used. -/
def Chunk.used (c : Chunk) : Nat := c.size - c.avail

/-- `b` lies within the first `n` bytes of chunk `c`. -/
def MBlk.In (b : MBlk) (c : Chunk) (n : Nat) : Prop := c.p ≤ b.addr ∧ b.addr + b.size ≤ c.p + n

structure MInv (base len : Nat) (a : Arena) : Prop where
  av : a.m.head.avail ≤ a.m.head.size
  reg : (a.m.head :: a.m.older).map (fun c => (c.p, c.owned)) = a.regions base len
  own : ∀ c ∈ a.m.head :: a.m.older, c.size ≤ c.owned
  dis : (a.regions base len).Pairwise fun x y => Disjoint x.1 x.2 y.1 y.2
  blk : ∀ b ∈ a.live, b.In a.m.head a.m.head.used ∨ ∃ c ∈ a.m.older, b.In c c.size
  sep : a.live.Pairwise fun x y => Disjoint x.addr x.size y.addr y.size

def Arena.ofBuffer (base len : Nat) : Arena := { m := Mono.ofBuffer base len }

theorem realAlign_ge (al : Nat) : 8 ≤ Mono.realAlign al := by
  unfold Mono.realAlign; have : blockAlign = 8 := rfl; omega

theorem realAlign_dvd {al k : Nat} (h : al = 2 ^ k) : 8 ∣ Mono.realAlign al := by
  unfold Mono.realAlign
  have h8 : blockAlign = 8 := rfl
  rw [h8]
  by_cases hk : k < 3
  · have : k = 0 ∨ k = 1 ∨ k = 2 := by omega
    rcases this with h' | h' | h' <;> (subst h'; subst h; decide)
  · have : (2:Nat) ^ k = 8 * 2 ^ (k - 3) := by
      have e : k = 3 + (k - 3) := by omega
      have e2 : (2:Nat) ^ (3 + (k - 3)) = 2 ^ 3 * 2 ^ (k - 3) := Nat.pow_add 2 3 (k - 3)
      rw [← e] at e2
      exact e2
    have hp : 0 < 2 ^ (k - 3) := Nat.pow_pos (by decide)
    rw [Nat.max_eq_left (by omega), h]
    exact ⟨2 ^ (k - 3), this⟩

/-- The two branches of `allocate`, without the wrap-around. -/
theorem allocate_cases (m : Mono) (size al mem : Nat) (hw : size + Mono.realAlign al < 2 ^ 64) :
    (∃ pad, 0 < pad ∧ (pad + size) % Mono.realAlign al = 0 ∧ pad ≤ Mono.realAlign al ∧ size + pad ≤ m.head.avail ∧
      m.allocate size al mem = (m.head.p + m.head.used + pad,
        { m with head := { m.head with avail := m.head.avail - (size + pad) } })) ∨
    (∃ pad, pad < 8 ∧ 8 ∣ m.memSize size + pad ∧
      m.allocate size al mem = (mem, { m with
        head := { p := mem, avail := m.memSize size + pad - size, size := m.memSize size + pad
                  aligned := Mono.realAlign al, owned := m.memSize size + pad + blockSize
                  header := some (mem + m.memSize size + m.memSize size % 8) }
        older := m.head :: m.older })) := by
  have h8 : blockAlign = 8 := rfl
  have hA := realAlign_ge al
  have hlt : size % Mono.realAlign al < Mono.realAlign al := Nat.mod_lt _ (by omega)
  have hmod : (size + (Mono.realAlign al - size % Mono.realAlign al)) % 2 ^ 64 =
      size + (Mono.realAlign al - size % Mono.realAlign al) := by
    apply Nat.mod_eq_of_lt; omega
  unfold Mono.allocate
  dsimp only
  rw [hmod]
  by_cases hd : size + (Mono.realAlign al - size % Mono.realAlign al) ≤ m.head.avail
  · rw [if_pos hd]
    left
    refine ⟨Mono.realAlign al - size % Mono.realAlign al, by omega, ?_, by omega, hd, rfl⟩
    have := Nat.div_add_mod size (Mono.realAlign al)
    have e : Mono.realAlign al - size % Mono.realAlign al + size =
        Mono.realAlign al + Mono.realAlign al * (size / Mono.realAlign al) := by omega
    rw [e, Nat.add_mul_mod_self_left, Nat.mod_self]
  · rw [if_neg hd]
    right
    by_cases ho : m.memSize size % blockAlign = 0
    · have ho' := ho
      rw [h8] at ho'
      refine ⟨0, by omega, by omega, ?_⟩
      simp only [if_pos ho]
      rfl
    · have ho' := ho
      rw [h8] at ho'
      refine ⟨8 - m.memSize size % 8, by omega, by omega, ?_⟩
      simp only [if_neg ho]
      rfl

theorem memSize_ge (m : Mono) (n : Nat) : n ≤ m.memSize n := by unfold Mono.memSize; omega

theorem MInv.init {base len : Nat} : MInv base len (Arena.ofBuffer base len) := by
  constructor <;> simp [Arena.ofBuffer, Mono.ofBuffer, Arena.regions]

/-- What one request does to the arena. -/
theorem Arena.step_cases (a : Arena) (r : Req) (hw : r.size + Mono.realAlign r.align < 2 ^ 64) :
    (∃ pad, 0 < pad ∧ (pad + r.size) % Mono.realAlign r.align = 0 ∧ pad ≤ Mono.realAlign r.align ∧
      r.size + pad ≤ a.m.head.avail ∧
      a.step r = { m := { a.m with head := { a.m.head with avail := a.m.head.avail - (r.size + pad) } }
                   live := ⟨a.m.head.p + a.m.head.used + pad, r.size, r.align⟩ :: a.live, got := a.got }) ∨
    (∃ pad, pad < 8 ∧ 8 ∣ a.m.memSize r.size + pad ∧
      a.step r = { m := { a.m with
        head := { p := r.mem, avail := a.m.memSize r.size + pad - r.size, size := a.m.memSize r.size + pad
                  aligned := Mono.realAlign r.align, owned := a.m.memSize r.size + pad + blockSize
                  header := some (r.mem + a.m.memSize r.size + a.m.memSize r.size % 8) }
        older := a.m.head :: a.m.older }
                   live := ⟨r.mem, r.size, r.align⟩ :: a.live
                   got := (r.mem, a.m.memSize r.size + pad + blockSize, Mono.realAlign r.align) :: a.got }) := by
  rcases allocate_cases a.m r.size r.align r.mem hw with ⟨pad, h1, h2, h3, h4, h5⟩ | ⟨pad, h1, h2, h3⟩
  · left
    refine ⟨pad, h1, h2, h3, h4, ?_⟩
    unfold Arena.step; rw [h5]; simp
  · right
    refine ⟨pad, h1, h2, ?_⟩
    unfold Arena.step; rw [h3]; simp

theorem MInv.step {base len : Nat} {a : Arena} (h : MInv base len a) (r : Req) (hn : NewOk base len a [r]) :
    MInv base len (a.step r) := by
  obtain ⟨⟨_, hw, _, hd⟩, -⟩ := hn
  have hreg := h.reg
  have hown := h.own
  -- blocks outside the head are apart from it
  have hold : ∀ c ∈ a.m.older, Disjoint a.m.head.p a.m.head.owned c.p c.owned := by
    intro c hc
    have := h.dis
    rw [← hreg, List.map_cons, List.pairwise_cons] at this
    exact this.1 _ (List.mem_map.2 ⟨c, hc, rfl⟩)
  have hall : ∀ c ∈ a.m.head :: a.m.older, Disjoint r.mem (a.m.memSize r.size + 7 + blockSize) c.p c.owned := by
    intro c hc
    exact hd (c.p, c.owned) (by rw [← hreg]; exact List.mem_map.2 ⟨c, hc, rfl⟩)
  rcases Arena.step_cases a r hw with ⟨pad, h1, -, h3, h4, h5⟩ | ⟨pad, h1, -, h5⟩
  · rw [h5]
    have hav := h.av
    have hu : ({ a.m.head with avail := a.m.head.avail - (r.size + pad) } : Chunk).used
        = a.m.head.used + (r.size + pad) := by simp only [Chunk.used]; omega
    have hus : a.m.head.used + (r.size + pad) ≤ a.m.head.size := by simp only [Chunk.used]; omega
    have hos := hown a.m.head (by simp)
    refine ⟨by simp only; omega, ?_, ?_, h.dis, ?_, ?_⟩
    · refine Eq.trans ?_ hreg
      simp
    · intro c hc
      rcases List.mem_cons.1 hc with hc | hc
      · subst hc; exact hos
      · exact hown c (List.mem_cons_of_mem _ hc)
    · intro b hb
      rcases List.mem_cons.1 hb with hb | hb
      · left; subst hb; rw [hu]; simp only [MBlk.In]; omega
      · rcases h.blk b hb with hb | hb
        · left; rw [hu]; simp only [MBlk.In] at *; omega
        · right; exact hb
    · refine List.pairwise_cons.2 ⟨?_, h.sep⟩
      intro b hb
      rcases h.blk b hb with hb | ⟨c, hc, hb⟩
      · simp only [MBlk.In, Disjoint] at *; omega
      · have := hold c hc
        have := hown c (List.mem_cons_of_mem _ hc)
        simp only [MBlk.In, Disjoint] at *; omega
  · rw [h5]
    have hge := memSize_ge a.m r.size
    refine ⟨by simp only; omega, ?_, ?_, ?_, ?_, ?_⟩
    · simp only [Arena.regions, List.map_cons, List.cons_append]
      congr 1
    · intro c hc
      rcases List.mem_cons.1 hc with hc | hc
      · subst hc; simp only; omega
      · exact hown c hc
    · simp only [Arena.regions, List.map_cons, List.cons_append]
      refine List.pairwise_cons.2 ⟨?_, h.dis⟩
      intro g hg
      have := hd g hg
      simp only [Disjoint] at *; omega
    · intro b hb
      rcases List.mem_cons.1 hb with hb | hb
      · left; subst hb; simp only [MBlk.In, Chunk.used]; omega
      · right
        rcases h.blk b hb with hb | ⟨c, hc, hb⟩
        · refine ⟨a.m.head, by simp, ?_⟩
          simp only [MBlk.In, Chunk.used] at *; omega
        · exact ⟨c, List.mem_cons_of_mem _ hc, hb⟩
    · refine List.pairwise_cons.2 ⟨?_, h.sep⟩
      intro b hb
      have : ∃ c ∈ a.m.head :: a.m.older, b.In c c.size := by
        rcases h.blk b hb with hb | ⟨c, hc, hb⟩
        · refine ⟨a.m.head, by simp, ?_⟩
          simp only [MBlk.In, Chunk.used] at *; omega
        · exact ⟨c, List.mem_cons_of_mem _ hc, hb⟩
      obtain ⟨c, hc, hb⟩ := this
      have := hall c hc
      have := hown c hc
      simp only [MBlk.In, Disjoint] at *; omega

theorem MInv.steps {base len : Nat} : ∀ (rs : List Req) {a : Arena}, MInv base len a → NewOk base len a rs →
    MInv base len (a.steps rs)
  | [], _, h, _ => h
  | r :: rs, a, h, hn => MInv.steps rs (h.step r ⟨hn.1, trivial⟩) hn.2

theorem MInv.chunk {base len : Nat} {a : Arena} (h : MInv base len a) {b : MBlk} (hb : b ∈ a.live) :
    ∃ c ∈ a.m.head :: a.m.older, b.In c c.size := by
  rcases h.blk b hb with hb | ⟨c, hc, hb⟩
  · refine ⟨a.m.head, by simp, ?_⟩
    have := h.av
    simp only [MBlk.In, Chunk.used] at *; omega
  · exact ⟨c, List.mem_cons_of_mem _ hc, hb⟩

/-- Bookkeeping: where the headers are when all sizes are multiples of 4. -/
structure HInv (a : Arena) : Prop where
  hdr : ∀ c ∈ a.m.head :: a.m.older, ∀ x, c.header = some x →
    x = c.p + c.size ∧ c.owned = c.size + blockSize ∧ 8 ∣ c.p ∧ 8 ∣ c.size
  four : 4 ∣ a.m.chunkSize

theorem HInv.step {a : Arena} (h : HInv a) (r : Req) {base len} (hn : NewOk base len a [r]) (hs : 4 ∣ r.size) :
    HInv (a.step r) := by
  obtain ⟨⟨⟨k, hk⟩, hw, hal, hd⟩, -⟩ := hn
  rcases Arena.step_cases a r hw with ⟨pad, h1, -, h3, h4, h5⟩ | ⟨pad, h1, h2, h5⟩
  · rw [h5]
    refine ⟨?_, h.four⟩
    intro c hc x hx
    rcases List.mem_cons.1 hc with hc | hc
    · subst hc; exact h.hdr a.m.head (by simp) x hx
    · exact h.hdr c (List.mem_cons_of_mem _ hc) x hx
  · rw [h5]
    refine ⟨?_, h.four⟩
    intro c hc x hx
    rcases List.mem_cons.1 hc with hc | hc
    · subst hc
      have h8 : 8 ∣ r.mem := Nat.dvd_trans (realAlign_dvd hk) hal
      have h4 : 4 ∣ a.m.memSize r.size := by
        unfold Mono.memSize
        rcases Nat.le_total a.m.chunkSize r.size with hle | hle
        · rw [Nat.max_eq_right hle]; exact hs
        · rw [Nat.max_eq_left hle]; exact h.four
      simp only [Option.some.injEq] at hx
      refine ⟨?_, rfl, h8, h2⟩
      simp only; omega
    · exact h.hdr c hc x hx

theorem HInv.steps {base len : Nat} : ∀ (rs : List Req) {a : Arena}, HInv a → NewOk base len a rs →
    (∀ r ∈ rs, 4 ∣ r.size) → HInv (a.steps rs)
  | [], _, h, _, _ => h
  | r :: rs, a, h, hn, hs => HInv.steps rs (h.step r (base := base) (len := len) ⟨hn.1, trivial⟩ (hs r (by simp))) hn.2
      (fun r' hr => hs r' (List.mem_cons_of_mem _ hr))

/-- Alignment: one alignment for all, all sizes multiples of it. -/
structure AInv (A : Nat) (a : Arena) : Prop where
  av : a.m.head.avail ≤ a.m.head.size
  hd : A ∣ a.m.head.p + a.m.head.used
  blk : ∀ b ∈ a.live, A ∣ b.addr

theorem AInv.step {A : Nat} {a : Arena} (h : AInv A a) (r : Req) {base len} (hn : NewOk base len a [r])
    (hs : A ∣ r.size) (hA : Mono.realAlign r.align = A) : AInv A (a.step r) := by
  obtain ⟨⟨⟨k, hk⟩, hw, hal, hd⟩, -⟩ := hn
  have hav := h.av
  rw [hA] at hal
  rcases Arena.step_cases a r hw with ⟨pad, h1, h2, h3, h4, h5⟩ | ⟨pad, h1, h2, h5⟩
  · rw [h5]
    rw [hA] at h2
    have hp : A ∣ pad := (Nat.dvd_add_left hs).1 (Nat.dvd_of_mod_eq_zero h2)
    have hu : ({ a.m.head with avail := a.m.head.avail - (r.size + pad) } : Chunk).used
        = a.m.head.used + (r.size + pad) := by simp only [Chunk.used]; omega
    refine ⟨by simp only; omega, ?_, ?_⟩
    · rw [hu]
      simp only
      rw [← Nat.add_assoc]
      exact Nat.dvd_add h.hd (Nat.dvd_add hs hp)
    · intro b hb
      rcases List.mem_cons.1 hb with hb | hb
      · subst hb; exact Nat.dvd_add h.hd hp
      · exact h.blk b hb
  · rw [h5]
    have hge := memSize_ge a.m r.size
    refine ⟨by simp only; omega, ?_, ?_⟩
    · have : (a.m.memSize r.size + pad) - (a.m.memSize r.size + pad - r.size) = r.size := by omega
      simp only [Chunk.used]
      rw [this]
      exact Nat.dvd_add hal hs
    · intro b hb
      rcases List.mem_cons.1 hb with hb | hb
      · subst hb; exact hal
      · exact h.blk b hb

theorem AInv.steps {base len A : Nat} : ∀ (rs : List Req) {a : Arena}, AInv A a → NewOk base len a rs →
    (∀ r ∈ rs, A ∣ r.size ∧ Mono.realAlign r.align = A) → AInv A (a.steps rs)
  | [], _, h, _, _ => h
  | r :: rs, a, h, hn, hs => AInv.steps rs (h.step r (base := base) (len := len) ⟨hn.1, trivial⟩
      (hs r (by simp)).1 (hs r (by simp)).2) hn.2 (fun r' hr => hs r' (List.mem_cons_of_mem _ hr))

/-- Release: what the chunks say is what was obtained. -/
structure RInv (a : Arena) : Prop where
  got : ∃ b, (a.m.head :: a.m.older).map (fun c => (c.p, blockSize + c.size, c.aligned)) = a.got ++ [b]

theorem RInv.step {a : Arena} (h : RInv a) (r : Req) (hw : r.size + Mono.realAlign r.align < 2 ^ 64) :
    RInv (a.step r) := by
  obtain ⟨b, hb⟩ := h.got
  rcases Arena.step_cases a r hw with ⟨pad, h1, -, h3, h4, h5⟩ | ⟨pad, h1, h2, h5⟩
  · rw [h5]; exact ⟨b, by simpa using hb⟩
  · rw [h5]; refine ⟨b, ?_⟩
    rw [List.map_cons, hb, List.cons_append]
    simp [Nat.add_comm]

end Cobalt.Mem
