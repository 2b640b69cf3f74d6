import Verif.File.WholeLemmas
import Verif.File.Props
/-!
# C125: whole reads and writes of files

src/io/read.cpp, src/io/write.cpp, src/io/stream_file.cpp, src/io/random_access_file.cpp.
-/
namespace Cobalt.File

open Io (Seq Buf Result)

/-- **C125** for reads: however the device splits them. -/
theorem C125_read (s : Sys) (buf : Seq) (ks : List Nat) (hk : buf.cells.length < ks.length) :
    (readAll s buf 0 ks).1.file.data = s.file.data ∧
    (readAll s buf 0 ks).1.file.pos =
      s.file.pos + min buf.cells.length (s.file.data.length - s.file.pos) ∧
    Reads s.file.data s.file.pos s.mem buf.cells (readAll s buf 0 ks).1.mem (readAll s buf 0 ks).2 := by
  rw [readAll_eq ks s buf 0 (by omega) (by omega)]
  refine ⟨rfl, rfl, ?_, fun a ha => ?_, fun hn i c hc hi => ?_⟩
  · simp
  · refine store_other _ _ _ _ fun hm => ha ?_
    rw [List.length_take, List.length_drop] at hm
    exact (List.take_subset_take_left _ (by omega)) hm
  · have hil : i < buf.cells.length := (List.getElem?_eq_some_iff.1 hc).1
    dsimp only
    rw [store_get _ _ _ hn i c hc (by rw [List.length_take, List.length_drop]; omega),
      List.getElem?_take, if_pos hil, List.getElem?_drop]

/-- **C125** for writes. -/
theorem C125_write (s : Sys) (buf : Seq) (ks : List Nat) (hk : buf.cells.length ≤ ks.length) :
    (writeAll s buf 0 ks).1.mem = s.mem ∧
    (writeAll s buf 0 ks).1.file.pos = s.file.pos + buf.cells.length ∧
    Writes s.file.data s.file.pos s.mem buf.cells (writeAll s buf 0 ks).1.file.data
      (writeAll s buf 0 ks).2 := by
  rw [writeAll_eq ks s buf 0 hk]
  by_cases hc : buf.cells = []
  · rw [if_pos hc]
    refine ⟨rfl, by simp [hc], by simp [hc], ?_⟩
    simp only [hc, List.length_nil, List.map_nil]
    refine ⟨rfl, fun _ => rfl, fun h => absurd h (by omega), fun i hi => ?_⟩
    rw [if_neg (by omega), if_pos hi]
  · rw [if_neg hc]
    have hp : 0 < buf.cells.length := List.length_pos_iff.2 hc
    refine ⟨rfl, rfl, by simp, ?_⟩
    dsimp only
    refine ⟨by simp, fun h => by omega, fun _ => by rw [patch_length]; simp, fun i hi => ?_⟩
    rw [patch_length] at hi
    rw [patch_getElem? _ _ _ _ hi]
    simp

/-- **C125**, back and forth: what was written is what is read after seeking back to where the write began, by buffers
of the same total size, however both are split into buffers and transfers. -/
theorem C125_back (s : Sys) (out inp : Seq) (ks js : List Nat) (hsz : inp.cells.length = out.cells.length)
    (hks : out.cells.length ≤ ks.length) (hjs : out.cells.length < js.length) (hn : inp.cells.Nodup) :
    let w := (writeAll s out 0 ks).1
    let f := (w.file.seek s.file.pos .start).1
    let r := readAll ⟨f, w.mem⟩ inp 0 js
    r.2 = .done none out.cells.length ∧
    ∀ (i a b : Nat), out.cells[i]? = some a → inp.cells[i]? = some b → r.1.mem b = s.mem a := by
  obtain ⟨hm, hp, hres, hw1, hw2, hw3, hw4⟩ := C125_write s out ks hks
  intro w f r
  have hf : f = { w.file with pos := s.file.pos } := by
    have : ¬ ((s.file.pos : Int) < 0) := by omega
    simp [f, F.seek, F.lseek, Whence.num, F.goto, this]
  have hr := C125_read ⟨f, w.mem⟩ inp js (by omega)
  obtain ⟨_, _, h1, h2, h3⟩ := hr
  have hlen : out.cells = [] ∨ s.file.pos + out.cells.length ≤ f.data.length := by
    by_cases hc : out.cells = []
    · exact .inl hc
    · have hp : 0 < out.cells.length := List.length_pos_iff.2 hc
      right
      rw [hf]
      have := hw3 hp
      change s.file.pos + out.cells.length ≤ (writeAll s out 0 ks).1.file.data.length
      omega
  have hfp : f.pos = s.file.pos := by rw [hf]
  dsimp only at h1 h2 h3
  rw [hfp] at h1 h3
  have hc0 : out.cells = [] → inp.cells = [] := fun hc => by
    rw [hc] at hsz; exact List.length_eq_zero_iff.1 hsz
  refine ⟨?_, fun i a b ha hb => ?_⟩
  · change r.2 = _ at h1
    rw [h1, hsz]
    rcases hlen with hc | hl
    · rw [if_pos (.inr (hc0 hc)), hc]; simp
    · rw [if_pos (.inl hl)]
      congr 1; omega
  · have hi : i < out.cells.length := (List.getElem?_eq_some_iff.1 ha).1
    have hl : s.file.pos + out.cells.length ≤ f.data.length := by
      rcases hlen with hc | hl
      · rw [hc] at hi; simp at hi
      · exact hl
    have := h3 hn i b hb (by omega)
    have hd := hw4 (s.file.pos + i) (by rw [hf] at hl; change _ ≤ (writeAll s out 0 ks).1.file.data.length at hl; omega)
    rw [if_pos (by omega), Nat.add_sub_cancel_left, List.getElem?_map, ha] at hd
    have hfd : f.data = (writeAll s out 0 ks).1.file.data := by rw [hf]
    rw [hfd, hd] at this
    simpa using this

/-- **C125** for reads at an offset, with native files. -/
theorem C125_read_at (s : Sys) (offset : Nat) (buf : Seq) (ks : List Nat) (hk : buf.cells.length < ks.length)
    (hL : s.file.data.length < 2 ^ 64) (ho : offset < 2 ^ 64) :
    (readAllAt true s offset buf 0 ks).1.file = s.file ∧
    Reads s.file.data offset s.mem buf.cells (readAllAt true s offset buf 0 ks).1.mem
      (readAllAt true s offset buf 0 ks).2 := by
  rw [readAllAt_native ks s offset buf 0 hL ho]
  exact ⟨rfl, (C125_read ⟨{ s.file with pos := offset }, s.mem⟩ buf ks hk).2.2⟩

/-- **C125** is violated for reads at an offset without native files: four bytes are read at the start of
the file `10 11 12 13 14`, the device gives three of them first, and the last byte is `10`, without an error. -/
theorem C125_violated : ¬ ∀ (s : Sys) (offset : Nat) (buf : Seq) (ks : List Nat), buf.cells.length < ks.length →
    Reads s.file.data offset s.mem buf.cells (readAllAt false s offset buf 0 ks).1.mem
      (readAllAt false s offset buf 0 ks).2 := by
  intro h
  obtain ⟨_, _, h3⟩ := h ⟨{ data := [10, 11, 12, 13, 14] }, fun _ => 0⟩ 0 ⟨⟨100, 4⟩, []⟩ [2, 2, 2, 2, 2] (by decide)
  have := h3 (by decide) 3 103 rfl (by decide)
  revert this
  decide

/-- … and nothing is reported -/
example : (readAllAt false ⟨{ data := [10, 11, 12, 13, 14] }, fun _ => 0⟩ 0 ⟨⟨100, 4⟩, []⟩ 0 [2, 2, 2, 2, 2]).2 =
    .done none 4 := by decide

/-! ### Without native files -/

theorem readSomeAt_lucky {s : Sys} {offset : Nat} (h : Lucky s.file offset) (buf : Seq) (k : Nat) :
    (s.readSomeAt false offset buf k).2 = (Sys.readSome ⟨{ s.file with pos := offset }, s.mem⟩ buf k).2 ∧
    (s.readSomeAt false offset buf k).1 = (Sys.readSome ⟨{ s.file with pos := offset }, s.mem⟩ buf k).1 := by
  unfold Sys.readSomeAt Sys.readSome F.readAt
  simp only [Bool.false_eq_true, if_false]
  rw [lucky_moves h]
  dsimp only
  split
  · rename_i he
    refine ⟨rfl, ?_⟩
    simp only [F.read] at he ⊢
    rw [he.1]
    rfl
  · exact ⟨rfl, rfl⟩

/-- As long as the offsets are lucky. -/
theorem readAllAt_lucky (ks : List Nat) : ∀ (s : Sys) (offset : Nat) (buf : Seq) (m : Nat),
    s.file.data.length < 2 ^ 64 → offset < 2 ^ 64 →
    (0 < buf.cells.length → Lucky s.file offset) →
    (∀ n, 0 < n → n < buf.cells.length → offset + n ≤ s.file.data.length →
      Lucky { s.file with pos := offset + n } (offset + n)) →
    (readAllAt false s offset buf m ks).1.mem = (readAll ⟨{ s.file with pos := offset }, s.mem⟩ buf m ks).1.mem ∧
    (readAllAt false s offset buf m ks).1.file.data = s.file.data ∧
    (readAllAt false s offset buf m ks).2 = (readAll ⟨{ s.file with pos := offset }, s.mem⟩ buf m ks).2 := by
  induction ks with
  | nil =>
    intro s offset buf m _ _ _ _
    unfold readAllAt readAll
    split <;> exact ⟨rfl, rfl, rfl⟩
  | cons k ks ih =>
    intro s offset buf m hL ho h1 h2
    unfold readAllAt readAll
    rw [Io.bufferSize_eq]
    by_cases hz : 0 < buf.cells.length
    · rw [if_pos hz, if_pos hz]
      dsimp only
      obtain ⟨e1, e2⟩ := readSomeAt_lucky (h1 hz) buf k
      rw [e1, e2]
      unfold Sys.readSome
      rw [Io.bufferSize_eq]
      simp only [F.read, List.length_take, List.length_drop]
      by_cases he : s.file.data.length ≤ offset
      · rw [if_pos (by omega)]
        exact ⟨rfl, rfl, rfl⟩
      · rw [if_neg (by omega)]
        dsimp only
        generalize hn : min (min buf.cells.length (k + 1)) (s.file.data.length - offset) = n
        obtain ⟨buf', hb, hcells⟩ := Io.C39_drop_bytes buf n
        rw [hb]
        dsimp only
        have ha : Io.addOffset offset n = offset + n := Nat.mod_eq_of_lt (by omega)
        have hcl : buf'.cells.length = buf.cells.length - n := by rw [hcells, List.length_drop]
        rw [ha]
        exact ih ⟨{ s.file with pos := offset + n }, _⟩ (offset + n) buf' (m + n) hL (by omega)
          (fun h => h2 n (by omega) (by omega) (by omega))
          (fun j hj hj2 hj3 => by
            have := h2 (n + j) (by omega) (by omega) (by dsimp only at hj3; omega)
            simpa only [Nat.add_assoc] using this)
    · rw [if_neg hz, if_neg hz]
      exact ⟨rfl, rfl, rfl⟩

/-- The device moves two bytes first; the rest is sought at the end of the file. -/
theorem early (s : Sys) (buf : Seq) (h1 : 3 ≤ buf.cells.length) (h2 : 3 ≤ s.file.data.length) :
    (readAllAt false s 0 buf 0 (1 :: List.replicate buf.cells.length 0)).2 = .done (some eof) 2 := by
  obtain ⟨e1, e2⟩ := readSomeAt_lucky (s := s) (.inl rfl : Lucky s.file 0) buf 1
  unfold readAllAt
  rw [Io.bufferSize_eq, if_pos (by omega)]
  dsimp only
  rw [e1, e2]
  unfold Sys.readSome
  rw [Io.bufferSize_eq]
  simp only [F.read, List.length_take, List.length_drop]
  have hn : min (min buf.cells.length (1 + 1)) (s.file.data.length - 0) = 2 := by omega
  rw [hn, if_neg (by omega)]
  dsimp only
  obtain ⟨buf', hb, hcells⟩ := Io.C39_drop_bytes buf 2
  rw [hb]
  dsimp only
  have hcl : buf'.cells.length = buf.cells.length - 2 := by rw [hcells, List.length_drop]
  have hrep : List.replicate buf.cells.length 0 = 0 :: List.replicate (buf.cells.length - 1) 0 := by
    rw [← List.replicate_succ]; congr 1; omega
  rw [hrep]
  unfold readAllAt
  rw [Io.bufferSize_eq, if_pos (by omega)]
  dsimp only
  have hl : ∀ f : F, f.lseek 0 (toInt (Io.addOffset 0 2)) = .ok { f with pos := f.data.length } := by
    intro f
    have : toInt (Io.addOffset 0 2) = 2 := by decide
    rw [this]
    have : ¬ ((f.data.length : Int) < 0) := by omega
    simp [F.lseek, F.goto, this]
  unfold Sys.readSomeAt F.readAt
  simp only [Bool.false_eq_true, if_false, hl, F.read, List.drop_length, List.take_nil, List.length_nil]
  rw [Io.bufferSize_eq, if_pos ⟨trivial, by omega⟩]
  rfl

/-- Without native files a whole read at the start of a file is right, however it is split, exactly if no more than two
bytes are to be had or wanted. -/
theorem C125_exact (s : Sys) (buf : Seq) (hL : s.file.data.length < 2 ^ 64) :
    (∀ ks : List Nat, buf.cells.length < ks.length →
      Reads s.file.data 0 s.mem buf.cells (readAllAt false s 0 buf 0 ks).1.mem (readAllAt false s 0 buf 0 ks).2) ↔
    min buf.cells.length s.file.data.length ≤ 2 := by
  constructor
  · intro h
    refine Classical.byContradiction fun hc => ?_
    obtain ⟨h1, _⟩ := h (1 :: List.replicate buf.cells.length 0) (by simp)
    rw [early s buf (by omega) (by omega)] at h1
    injection h1 with _ h2
    omega
  · intro hm ks hk
    obtain ⟨e1, _, e2⟩ := readAllAt_lucky ks s 0 buf 0 hL (by omega) (fun _ => .inl rfl)
      (fun n hn hn2 hn3 => by
        have : n = 1 ∨ n = 2 := by omega
        rcases this with rfl | rfl
        · exact .inr (.inl ⟨rfl, rfl⟩)
        · refine .inr (.inr ⟨.inl rfl, ?_⟩)
          dsimp only
          omega)
    rw [e1, e2]
    exact (C125_read ⟨{ s.file with pos := 0 }, s.mem⟩ buf ks hk).2.2

/-- … at most offsets nothing is read at all: `EINVAL`. -/
theorem C125_fails (s : Sys) (offset : Nat) (buf : Seq) (k : Nat) (ks : List Nat) (ho : 4 < offset % 2 ^ 32)
    (hb : 0 < buf.cells.length) :
    (readAllAt false s offset buf 0 (k :: ks)).2 = .done (some 22) 0 ∧
    (readAllAt false s offset buf 0 (k :: ks)).1.mem = s.mem := by
  have hl : s.file.lseek 0 (toInt offset) = .error .einval := by
    rcases toInt_cases offset with ⟨h1, _⟩ | ⟨h1, _⟩ <;> unfold F.lseek <;>
      rw [if_neg (by omega), if_neg (by omega), if_neg (by omega), if_neg (by omega), if_neg (by omega)]
  unfold readAllAt
  rw [Io.bufferSize_eq, if_pos hb]
  unfold Sys.readSomeAt F.readAt
  simp only [Bool.false_eq_true, if_false, hl]
  exact ⟨trivial, trivial⟩

example : 4 < 4096 % 2 ^ 32 := by decide

/-- **C125** as far as the code goes: whole reads and writes of a stream file, whole reads at an offset of a native
file, and of a file without native files at its start if no more than two bytes are to be had or wanted.

What is missing from `C125` is every other read at an offset without native files; see `C125_violated`,
`C125_exact`. -/
theorem C125_partial (s : Sys) (buf : Seq) (ks : List Nat) (hk : buf.cells.length < ks.length)
    (hL : s.file.data.length < 2 ^ 64) :
    Reads s.file.data s.file.pos s.mem buf.cells (readAll s buf 0 ks).1.mem (readAll s buf 0 ks).2 ∧
    Writes s.file.data s.file.pos s.mem buf.cells (writeAll s buf 0 ks).1.file.data (writeAll s buf 0 ks).2 ∧
    (∀ offset, offset < 2 ^ 64 →
      Reads s.file.data offset s.mem buf.cells (readAllAt true s offset buf 0 ks).1.mem
        (readAllAt true s offset buf 0 ks).2) ∧
    (min buf.cells.length s.file.data.length ≤ 2 →
      Reads s.file.data 0 s.mem buf.cells (readAllAt false s 0 buf 0 ks).1.mem
        (readAllAt false s 0 buf 0 ks).2) :=
  ⟨(C125_read s buf ks hk).2.2, (C125_write s buf ks (by omega)).2.2,
    fun offset ho => (C125_read_at s offset buf ks hk hL ho).2, fun hm => (C125_exact s buf hL).2 hm ks hk⟩

/-! ## Copying -/

theorem copy_main (b : Buf) (hb : 0 < b.size) (rounds : List (Nat × List Nat)) : ∀ (c : Copy),
    (∀ r ∈ rounds, b.size ≤ r.2.length) → c.src.data.length - c.src.pos < rounds.length →
    (copy b c rounds).2 = .eof ∧
    (copy b c rounds).1.src.data = c.src.data ∧
    (copy b c rounds).1.dst =
      if c.src.data.length ≤ c.src.pos then c.dst
      else { data := patch c.dst.data c.dst.pos (c.src.data.drop c.src.pos)
             pos := c.dst.pos + (c.src.data.length - c.src.pos) } := by
  induction rounds with
  | nil => intro c _ h; simp at h
  | cons r rounds ih =>
    intro c hr hl
    obtain ⟨k, ks⟩ := r
    have hks : b.size ≤ ks.length := hr (k, ks) (by simp)
    unfold copy
    have hcells : (Io.Seq.mk b []).cells = b.cells := by simp [Io.Seq.cells]
    have hcl : b.cells.length = b.size := by simp
    have hbs : (Io.Seq.mk b []).bufferSize = b.size := by rw [Io.bufferSize_eq, hcells, hcl]
    unfold Sys.readSome F.read
    simp only [hbs, List.length_take, List.length_drop, hcells]
    by_cases he : c.src.data.length ≤ c.src.pos
    · rw [if_pos (by omega), if_pos he]
      exact ⟨rfl, rfl, rfl⟩
    · rw [if_neg (by omega), if_neg he]
      dsimp only
      generalize hn : min (min b.size (k + 1)) (c.src.data.length - c.src.pos) = n
      have hn0 : 0 < n := by omega
      have hnb : min b.size n = n := by omega
      rw [hnb]
      have hc2 : (Io.Seq.mk { b with size := n } []).cells = b.cells.take n := by
        simp only [Io.Seq.cells, List.map_nil, List.flatten_nil, List.append_nil, Buf.cells]
        rw [← List.map_take, List.take_range, Nat.min_eq_left (by omega)]
      have hc3 : (b.cells.take n).length = n := by rw [List.length_take, hcl]; omega
      have hne : b.cells.take n ≠ [] := by
        intro h; rw [h] at hc3; simp at hc3; omega
      have htk : List.take (min b.size (k + 1)) (List.drop c.src.pos c.src.data) =
          (c.src.data.drop c.src.pos).take n := by
        rw [← hn, ← List.length_drop, List.take_eq_take_iff]; omega
      have hln : ((c.src.data.drop c.src.pos).take n).length = n := by
        rw [List.length_take, List.length_drop]; omega
      rw [writeAll_eq ks _ _ 0 (by rw [hc2, hc3]; omega), hc2, if_neg hne, hc3, htk]
      dsimp only
      have hnd : b.cells.Nodup := by
        unfold Buf.cells
        refine List.pairwise_map.2 (List.nodup_range.imp fun {x y} h => ?_)
        omega
      have hload : (b.cells.take n).map (store c.mem b.cells ((c.src.data.drop c.src.pos).take n)) =
          (c.src.data.drop c.src.pos).take n := by
        apply List.ext_getElem?
        intro i
        by_cases hi : i < n
        · obtain ⟨a, ha⟩ : ∃ a, b.cells[i]? = some a := ⟨b.cells[i]'(by omega), List.getElem?_eq_getElem _⟩
          rw [List.getElem?_map, List.getElem?_take, if_pos hi, ha, Option.map_some]
          exact store_get _ _ _ hnd i a ha (by omega)
        · rw [List.getElem?_eq_none (by rw [List.length_map]; omega), List.getElem?_eq_none (by omega)]
      rw [hload]
      obtain ⟨g1, g2, g3⟩ := ih
        ⟨{ c.src with pos := c.src.pos + n },
          { data := patch c.dst.data c.dst.pos ((c.src.data.drop c.src.pos).take n), pos := c.dst.pos + n },
          store c.mem b.cells ((c.src.data.drop c.src.pos).take n)⟩
        (fun r hr' => hr r (by simp [hr'])) (by simp only [List.length_cons] at hl; dsimp only; omega)
      refine ⟨g1, g2, ?_⟩
      refine g3.trans ?_
      dsimp only
      by_cases hz : c.src.data.length ≤ c.src.pos + n
      · rw [if_pos hz]
        have : n = c.src.data.length - c.src.pos := by omega
        rw [this, ← List.length_drop, List.take_length]
      · rw [if_neg hz]
        have := patch_patch c.dst.data c.dst.pos ((c.src.data.drop c.src.pos).take n)
          (c.src.data.drop (c.src.pos + n))
        rw [hln] at this
        rw [this, ← List.drop_drop, List.take_append_drop]
        congr 1
        omega

/-- **C125**, copying: a loop of `read_some` and `write` copies what is left of one file to the other and ends at the
end of the file, however the transfers are split and whatever the size of the buffer. -/
theorem C125_copy (b : Buf) (hb : 0 < b.size) (rounds : List (Nat × List Nat)) (src dst : F) (mem : Nat → Nat)
    (h1 : ∀ r ∈ rounds, b.size ≤ r.2.length) (h2 : src.data.length - src.pos < rounds.length) :
    (copy b ⟨src, dst, mem⟩ rounds).2 = .eof ∧
    (copy b ⟨src, dst, mem⟩ rounds).1.src.data = src.data ∧
    WritesAt dst.data dst.pos (src.data.drop src.pos) (src.data.length - src.pos)
      (copy b ⟨src, dst, mem⟩ rounds).1.dst.data (src.data.length - src.pos) := by
  obtain ⟨g1, g2, g3⟩ := copy_main b hb rounds ⟨src, dst, mem⟩ h1 h2
  refine ⟨g1, g2, ?_⟩
  rw [g3]
  dsimp only
  by_cases he : src.data.length ≤ src.pos
  · rw [if_pos he]
    refine ⟨by simp, fun _ => rfl, fun h => absurd h (by omega), fun i hi => ?_⟩
    rw [if_neg (by omega), if_pos hi]
  · rw [if_neg he]
    refine ⟨by simp, fun h => by omega, fun _ => by rw [patch_length, List.length_drop], fun i hi => ?_⟩
    dsimp only at hi ⊢
    rw [patch_length] at hi
    rw [patch_getElem? _ _ _ _ hi, List.length_drop]

/-! ## Examples -/

/-- Three bytes in two buffers are written at position 1, in transfers of one and two. -/
example : (writeAll ⟨{ data := [1, 2], pos := 1 }, fun a => a⟩ ⟨⟨10, 1⟩, [⟨20, 2⟩]⟩ 0 [0, 1, 0]).1.file.data =
    [1, 10, 20, 21] := by decide

/-- Two bytes more than there are: `eof` and what was read. -/
example : (readAll ⟨{ data := [7, 8, 9], pos := 1 }, fun _ => 0⟩ ⟨⟨10, 1⟩, [⟨20, 3⟩]⟩ 0 [0, 0, 0, 0, 0]).2 =
    .done (some eof) 2 ∧
    [10, 20, 21].map (readAll ⟨{ data := [7, 8, 9], pos := 1 }, fun _ => 0⟩
      ⟨⟨10, 1⟩, [⟨20, 3⟩]⟩ 0 [0, 0, 0, 0, 0]).1.mem = [8, 9, 0] := by decide

example : ((⟨⟨10, 1⟩, [⟨20, 3⟩]⟩ : Seq).cells).Nodup ∧ (⟨⟨10, 1⟩, [⟨20, 3⟩]⟩ : Seq).cells.length < 5 := by decide

example : (copy ⟨100, 2⟩ ⟨{ data := [1, 2, 3, 4, 5] }, { data := [9, 9], pos := 1 }, fun _ => 0⟩
    [(0, [0, 0]), (5, [0, 0]), (1, [1, 1]), (1, [1, 1]), (0, [0, 0]), (0, [0, 0])]).1.dst.data =
    [9, 1, 2, 3, 4, 5] := by decide

end Cobalt.File
