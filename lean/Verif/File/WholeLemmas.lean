import Verif.File.WholeSpec
import Verif.File.Lemmas
import Verif.Io.BufferProps
import Verif.Io.TransferLemmas
/-! # Lemmas about whole reads and writes -/
namespace Cobalt.File

open Io (Seq Buf Result bufferSize_eq)

theorem store_take (mem : Nat → Nat) (cs bs : List Nat) :
    store mem cs bs = store mem (cs.take bs.length) bs := by
  induction cs generalizing mem bs with
  | nil => simp
  | cons c cs ih =>
    cases bs with
    | nil => simp [store]
    | cons b bs => simp only [List.length_cons, List.take_succ_cons, store]; exact ih _ _

theorem store_append (mem : Nat → Nat) (cs xs ys : List Nat) :
    store (store mem cs xs) (cs.drop xs.length) ys = store mem cs (xs ++ ys) := by
  induction cs generalizing mem xs with
  | nil => cases xs <;> cases ys <;> simp [store]
  | cons c cs ih =>
    cases xs with
    | nil => simp [store]
    | cons x xs => simp only [List.length_cons, List.drop_succ_cons, List.cons_append, store]; exact ih _ _

theorem store_other (mem : Nat → Nat) (cs bs : List Nat) (a : Nat) (h : a ∉ cs.take bs.length) :
    store mem cs bs a = mem a := by
  induction cs generalizing mem bs with
  | nil => cases bs <;> rfl
  | cons c cs ih =>
    cases bs with
    | nil => rfl
    | cons b bs =>
      simp only [List.length_cons, List.take_succ_cons, List.mem_cons, not_or] at h
      simp only [store]
      rw [ih _ _ h.2, if_neg h.1]

theorem store_get (mem : Nat → Nat) (cs bs : List Nat) (hn : cs.Nodup) (i c : Nat) (hc : cs[i]? = some c)
    (hi : i < bs.length) : some (store mem cs bs c) = bs[i]? := by
  induction cs generalizing mem bs i with
  | nil => simp at hc
  | cons d cs ih =>
    obtain ⟨hd, hn⟩ := List.nodup_cons.1 hn
    cases bs with
    | nil => simp at hi
    | cons b bs =>
      simp only [store]
      cases i with
      | zero =>
        simp at hc; subst hc
        rw [store_other _ _ _ _ (fun hc => hd (List.mem_of_mem_take hc))]
        simp
      | succ i => simp at hc; simpa using ih _ bs hn i hc (by simpa using hi)

theorem patch_patch (d : List Nat) (p : Nat) (xs ys : List Nat) :
    patch (patch d p xs) (p + xs.length) ys = patch d p (xs ++ ys) := by
  apply List.ext_getElem?
  intro i
  by_cases hi : i < max d.length (p + (xs ++ ys).length)
  · have hi' : i < max d.length (p + (xs.length + ys.length)) := by simpa using hi
    rw [patch_getElem? _ _ _ _ hi, patch_getElem? _ _ _ _ (by rw [patch_length]; omega), patch_length]
    simp only [List.length_append]
    by_cases h1 : p + xs.length ≤ i ∧ i < p + xs.length + ys.length
    · rw [if_pos h1, if_pos (by omega), List.getElem?_append_right (by omega)]
      congr 1; omega
    · rw [if_neg h1]
      by_cases h2 : p ≤ i ∧ i < p + xs.length
      · rw [if_pos (by omega), if_pos (by omega), patch_getElem? _ _ _ _ (by omega), if_pos h2,
          List.getElem?_append_left (by omega)]
      · rw [if_neg (by omega : ¬ (p ≤ i ∧ i < p + (xs.length + ys.length)))]
        by_cases h3 : i < max d.length (p + xs.length)
        · rw [if_pos h3, patch_getElem? _ _ _ _ h3, if_neg h2]
        · rw [if_neg h3, if_neg (by omega)]
  · have hi' : ¬ i < max d.length (p + (xs.length + ys.length)) := by simpa using hi
    rw [List.getElem?_eq_none (by rw [patch_length, patch_length]; omega),
      List.getElem?_eq_none (by rw [patch_length, List.length_append]; omega)]

/-- What a whole read does, in one formula. -/
theorem readAll_eq (ks : List Nat) : ∀ (s : Sys) (buf : Seq) (m : Nat), buf.cells.length ≤ ks.length →
    (buf.cells.length = ks.length → s.file.pos + buf.cells.length ≤ s.file.data.length) →
    readAll s buf m ks =
      (⟨{ s.file with pos := s.file.pos + min buf.cells.length (s.file.data.length - s.file.pos) },
        store s.mem buf.cells ((s.file.data.drop s.file.pos).take buf.cells.length)⟩,
       .done (if s.file.pos + buf.cells.length ≤ s.file.data.length ∨ buf.cells = [] then none else some eof)
        (m + min buf.cells.length (s.file.data.length - s.file.pos))) := by
  induction ks with
  | nil =>
    intro s buf m hl _
    have hc : buf.cells = [] := List.length_eq_zero_iff.1 (by simpa using hl)
    unfold readAll
    rw [if_neg (by rw [bufferSize_eq, hc]; simp)]
    simp [hc, store]
  | cons k ks ih =>
    intro s buf m hl hl2
    unfold readAll
    rw [bufferSize_eq]
    by_cases hz : 0 < buf.cells.length
    · rw [if_pos hz]
      have hne : buf.cells ≠ [] := List.length_pos_iff.1 hz
      dsimp only
      unfold Sys.readSome F.read
      simp only [bufferSize_eq, List.length_take, List.length_drop]
      by_cases he : s.file.data.length ≤ s.file.pos
      · rw [if_pos (by omega)]
        dsimp only
        have e0 : s.file.data.length - s.file.pos = 0 := by omega
        have e1 : s.file.data.drop s.file.pos = [] := List.drop_eq_nil_of_le he
        rw [if_neg (by simp only [hne, or_false]; omega), e0, e1]
        simp [store]
      · rw [if_neg (by omega)]
        dsimp only
        obtain ⟨buf', hb, hcells⟩ := Io.C39_drop_bytes buf
          (min (min buf.cells.length (k + 1)) (s.file.data.length - s.file.pos))
        rw [hb]
        dsimp only
        generalize hn : min (min buf.cells.length (k + 1)) (s.file.data.length - s.file.pos) = n at *
        have hcl : buf'.cells.length = buf.cells.length - n := by rw [hcells, List.length_drop]
        simp only [List.length_cons] at hl hl2
        rw [ih _ _ _ (by omega) (by dsimp only; omega)]
        dsimp only
        rw [hcl]
        have e2 : s.file.pos + n + min (buf.cells.length - n) (s.file.data.length - (s.file.pos + n)) =
            s.file.pos + min buf.cells.length (s.file.data.length - s.file.pos) := by omega
        have e3 : m + n + min (buf.cells.length - n) (s.file.data.length - (s.file.pos + n)) =
            m + min buf.cells.length (s.file.data.length - s.file.pos) := by omega
        have e4 : List.take (min buf.cells.length (k + 1)) (List.drop s.file.pos s.file.data) =
            (s.file.data.drop s.file.pos).take n := by
          rw [← hn, ← List.length_drop, List.take_eq_take_iff]
          omega
        have hln : ((s.file.data.drop s.file.pos).take n).length = n := by
          rw [List.length_take, List.length_drop]; omega
        have e5 : store (store s.mem buf.cells ((s.file.data.drop s.file.pos).take n)) buf'.cells
            ((s.file.data.drop (s.file.pos + n)).take (buf.cells.length - n)) =
            store s.mem buf.cells ((s.file.data.drop s.file.pos).take buf.cells.length) := by
          have := store_append s.mem buf.cells ((s.file.data.drop s.file.pos).take n)
            ((s.file.data.drop (s.file.pos + n)).take (buf.cells.length - n))
          rw [hln, ← hcells] at this
          rw [this]
          congr 1
          rw [← List.drop_drop]
          conv => rhs; rw [show buf.cells.length = n + (buf.cells.length - n) by omega]
          rw [List.take_add]
        rw [e2, e3, e4, e5]
        have e6 : (s.file.pos + n + (buf.cells.length - n) ≤ s.file.data.length ∨ buf'.cells = []) ↔
            (s.file.pos + buf.cells.length ≤ s.file.data.length ∨ buf.cells = []) := by
          have : buf'.cells = [] ↔ buf.cells.length - n = 0 := by
            rw [← List.length_eq_zero_iff, hcl]
          simp only [this, hne, or_false]
          omega
        simp only [e6]
    · rw [if_neg hz]
      have hc : buf.cells = [] := List.length_eq_zero_iff.1 (by omega)
      simp [hc, store]

/-- … a whole write -/
theorem writeAll_eq (ks : List Nat) : ∀ (s : Sys) (buf : Seq) (m : Nat), buf.cells.length ≤ ks.length →
    writeAll s buf m ks =
      (⟨if buf.cells = [] then s.file
        else { data := patch s.file.data s.file.pos (buf.cells.map s.mem)
               pos := s.file.pos + buf.cells.length }, s.mem⟩,
       .done none (m + buf.cells.length)) := by
  induction ks with
  | nil =>
    intro s buf m hl
    have hc : buf.cells = [] := List.length_eq_zero_iff.1 (by simpa using hl)
    unfold writeAll
    rw [if_neg (by rw [bufferSize_eq, hc]; simp)]
    simp [hc]
  | cons k ks ih =>
    intro s buf m hl
    unfold writeAll
    rw [bufferSize_eq]
    by_cases hz : 0 < buf.cells.length
    · rw [if_pos hz]
      have hne : buf.cells ≠ [] := List.length_pos_iff.1 hz
      dsimp only
      have hw : s.file.write (buf.cells.map s.mem) (k + 1) =
          ({ data := patch s.file.data s.file.pos ((buf.cells.take (k + 1)).map s.mem)
             pos := s.file.pos + min (k + 1) buf.cells.length }, min (k + 1) buf.cells.length) := by
        unfold F.write
        cases hb : (buf.cells.map s.mem).take (k + 1) with
        | nil => simp at hb; exact absurd hb hne
        | cons b l =>
          have h1 : (b :: l).length = min (k + 1) buf.cells.length := by rw [← hb]; simp
          simp only [List.length_cons] at h1
          dsimp only
          rw [← hb, h1, List.map_take]
      unfold Sys.writeSome
      rw [hw]
      dsimp only
      obtain ⟨buf', hb, hcells⟩ := Io.C39_drop_bytes buf (min (k + 1) buf.cells.length)
      rw [hb]
      dsimp only
      generalize hn : min (k + 1) buf.cells.length = n at *
      have hcl : buf'.cells.length = buf.cells.length - n := by rw [hcells, List.length_drop]
      simp only [List.length_cons] at hl
      rw [ih _ _ _ (by omega), if_neg hne]
      dsimp only
      have ht : buf.cells.take (k + 1) = buf.cells.take n := by
        rw [← hn, List.take_eq_take_iff]; omega
      rw [ht]
      by_cases he : buf'.cells = []
      · rw [if_pos he]
        have : n = buf.cells.length := by
          have := List.length_eq_zero_iff.2 he; omega
        rw [he, List.length_nil, this, List.take_length]
        simp
      · rw [if_neg he, hcl]
        have hpl : ((buf.cells.take n).map s.mem).length = n := by
          rw [List.length_map, List.length_take]; omega
        have := patch_patch s.file.data s.file.pos ((buf.cells.take n).map s.mem) (buf'.cells.map s.mem)
        rw [hpl] at this
        rw [this, hcells, ← List.map_append, List.take_append_drop]
        have e1 : s.file.pos + n + (buf.cells.length - n) = s.file.pos + buf.cells.length := by omega
        have e2 : m + n + (buf.cells.length - n) = m + buf.cells.length := by omega
        rw [e1, e2]
    · rw [if_neg hz]
      have hc : buf.cells = [] := List.length_eq_zero_iff.1 (by omega)
      simp [hc]

/-- A whole read at an offset of a native file is a whole read from there that leaves the file alone. -/
theorem readAllAt_native (ks : List Nat) : ∀ (s : Sys) (offset : Nat) (buf : Seq) (m : Nat),
    s.file.data.length < 2 ^ 64 → offset < 2 ^ 64 →
    readAllAt true s offset buf m ks =
      (⟨s.file, (readAll ⟨{ s.file with pos := offset }, s.mem⟩ buf m ks).1.mem⟩,
       (readAll ⟨{ s.file with pos := offset }, s.mem⟩ buf m ks).2) := by
  induction ks with
  | nil =>
    intro s offset buf m _ _
    unfold readAllAt readAll
    split <;> rfl
  | cons k ks ih =>
    intro s offset buf m hL ho
    unfold readAllAt readAll
    by_cases hz : 0 < buf.bufferSize
    · rw [if_pos hz, if_pos hz]
      dsimp only
      unfold Sys.readSomeAt Sys.readSome F.readAtNative
      simp only [if_true]
      have hr : (F.read { s.file with pos := offset } buf.bufferSize (k + 1)).2 =
          (s.file.data.drop offset).take (min buf.bufferSize (k + 1)) := rfl
      by_cases he : (F.read { s.file with pos := offset } buf.bufferSize (k + 1)).2.length = 0
      · rw [if_pos ⟨he, hz⟩, if_pos ⟨he, hz⟩]
      · rw [if_neg (fun h => he h.1), if_neg (fun h => he h.1)]
        dsimp only
        cases hb : buf.advance (F.read { s.file with pos := offset } buf.bufferSize (k + 1)).2.length with
        | none => rfl
        | some buf' =>
          dsimp only
          have hn : offset + (F.read { s.file with pos := offset } buf.bufferSize (k + 1)).2.length ≤
              s.file.data.length := by
            rw [hr, List.length_take, List.length_drop] at he ⊢; omega
          have ha : Io.addOffset offset (F.read { s.file with pos := offset } buf.bufferSize (k + 1)).2.length =
              offset + (F.read { s.file with pos := offset } buf.bufferSize (k + 1)).2.length :=
            Nat.mod_eq_of_lt (by omega)
          rw [ha]
          exact ih ⟨s.file, _⟩ _ _ _ hL (by omega)
    · rw [if_neg hz, if_neg hz]

end Cobalt.File
