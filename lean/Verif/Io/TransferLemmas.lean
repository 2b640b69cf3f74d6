import Verif.Io.BufferProps
import Verif.Io.TransferSpec
/-! Helper lemmas for `TransferProps`. -/
namespace Cobalt.Io

theorem bufferSize_eq (s : Seq) : s.bufferSize = s.cells.length := by
  simp only [Seq.bufferSize, Seq.cells, List.length_append, Buf.length_cells, List.length_flatten,
    List.map_map]
  congr 1
  congr 1
  apply List.map_congr_left
  intro b _
  simp

theorem placed_eq_mapIdx (offset : Nat) (cells : List Nat) :
    placed offset cells = cells.mapIdx fun i a => ((offset + i) % 2 ^ 64, a) := by
  apply List.ext_getElem
  · simp [placed]
  · intro i h1 h2
    simp [placed]

@[simp] theorem length_placed (offset : Nat) (cells : List Nat) :
    (placed offset cells).length = cells.length := by simp [placed]

theorem placed_append (offset : Nat) (a b : List Nat) :
    placed offset (a ++ b) = placed offset a ++ placed (addOffset offset a.length) b := by
  simp only [placed_eq_mapIdx, List.mapIdx_append, addOffset]
  congr 1
  apply List.mapIdx_eq_mapIdx_iff.2
  intro i h
  simp only [Prod.mk.injEq, and_true]
  omega

/-- Everything about one run of the loop, for the induction. -/
theorem transfer_main (steps : List Step) : ∀ (buf : Seq) (offset m : Nat),
    let r := transfer buf offset m steps
    r.2 ≠ .ub ∧
    (Honest r.1 → movedAll r.1 = placed offset (buf.cells.take ((r.1.map Xfer.n).sum)) ∧
      (r.1.map Xfer.n).sum ≤ buf.cells.length) ∧
    (∀ ec k, r.2 = .done ec k → k = m + (r.1.map Xfer.n).sum) ∧
    (∀ k, Honest r.1 → r.2 = .done none k → (r.1.map Xfer.n).sum = buf.cells.length) ∧
    (∀ e k, r.2 = .done (some e) k →
      (∃ st ∈ steps, st.ec = some e) ∨ (e = aborted ∧ ∃ st ∈ steps, st.cancelled = true)) := by
  induction steps with
  | nil => intro buf offset m; simp [transfer, movedAll, placed]
  | cons st rest ih =>
    intro buf offset m
    by_cases hc : buf.bufferSize > 0 ∧ st.cancelled = false
    · have hc' : (buf.bufferSize > 0 && !st.cancelled) = true := by simp [hc]
      cases he : st.ec with
      | some e =>
        simp only [transfer, hc', if_true, he]
        refine ⟨by simp, ?_, by simp, by simp, ?_⟩
        · intro hh
          have := hh _ (List.mem_singleton.2 rfl)
          simp [movedAll, Xfer.moved]
          exact this
        · intro e' k h
          simp only [Result.done.injEq, Option.some.injEq] at h
          exact Or.inl ⟨st, by simp, by rw [he, h.1]⟩
      | none =>
        obtain ⟨buf', hadv, hcells⟩ := C39_drop_bytes buf st.n
        simp only [transfer, hc', if_true, he, hadv]
        obtain ⟨h1, h2, h3, h4, h5⟩ := ih buf' (addOffset offset st.n) (m + st.n)
        refine ⟨h1, ?_, ?_, ?_, ?_⟩
        · intro hh
          have hx : st.n ≤ buf.cells.length := hh _ (List.mem_cons_self ..)
          obtain ⟨hm, hle⟩ := h2 (fun x hx => hh x (List.mem_cons_of_mem _ hx))
          rw [hcells] at hm hle
          constructor
          · simp only [movedAll, List.map_cons, List.flatten_cons, List.sum_cons]
            simp only [movedAll] at hm
            rw [hm, List.take_add, placed_append]
            simp [Xfer.moved, Nat.min_eq_left hx]
          · simp only [List.map_cons, List.sum_cons]
            simp only [List.length_drop] at hle
            omega
        · intro ec k h
          rw [h3 ec k h]; simp; omega
        · intro k hh h
          have hx : st.n ≤ buf.cells.length := hh _ (List.mem_cons_self ..)
          have := h4 k (fun x hx => hh x (List.mem_cons_of_mem _ hx)) h
          rw [hcells, List.length_drop] at this
          simp only [List.map_cons, List.sum_cons]
          omega
        · intro e k h
          rcases h5 e k h with ⟨s, hs, h⟩ | ⟨h, s, hs, h'⟩
          · exact Or.inl ⟨s, List.mem_cons_of_mem _ hs, h⟩
          · exact Or.inr ⟨h, s, List.mem_cons_of_mem _ hs, h'⟩
    · have hc' : (buf.bufferSize > 0 && !st.cancelled) = false := by
        simp only [Bool.and_eq_false_iff, decide_eq_false_iff_not, Bool.not_eq_false']
        by_cases h : buf.bufferSize > 0
        · right
          cases hb : st.cancelled
          · exact absurd ⟨h, hb⟩ hc
          · rfl
        · exact Or.inl h
      simp only [transfer, hc', Bool.false_eq_true, if_false]
      by_cases hcan : st.cancelled = true
      · simp only [hcan, if_true]
        refine ⟨by simp, by simp [movedAll, placed], by simp, by simp, ?_⟩
        intro e k h
        simp only [Result.done.injEq, Option.some.injEq] at h
        exact Or.inr ⟨h.1.symm, st, by simp, hcan⟩
      · simp only [hcan, Bool.false_eq_true, if_false]
        have hsz : buf.bufferSize = 0 := by
          simp only [Bool.not_eq_true] at hcan
          have : ¬ buf.bufferSize > 0 := fun h => hc ⟨h, hcan⟩
          omega
        rw [bufferSize_eq] at hsz
        simp [movedAll, placed, hsz]

theorem transfer_progress (steps : List Step) : ∀ (buf : Seq) (offset m : Nat),
    (∀ st ∈ steps, st.ec = none → 0 < st.n) → buf.cells.length < steps.length →
    (transfer buf offset m steps).2 ≠ .pending := by
  induction steps with
  | nil => intro buf offset m _ h; simp at h
  | cons st rest ih =>
    intro buf offset m hp hlen
    unfold transfer
    split
    · next hc =>
      simp only [Bool.and_eq_true, decide_eq_true_eq] at hc
      cases he : st.ec with
      | some e => simp
      | none =>
        obtain ⟨buf', hadv, hcells⟩ := C39_drop_bytes buf st.n
        simp only [hadv]
        apply ih
        · intro s hs; exact hp s (List.mem_cons_of_mem _ hs)
        · have := hp st (by simp) he
          rw [hcells, List.length_drop]
          rw [bufferSize_eq] at hc
          simp at hlen
          omega
    · split <;> simp

end Cobalt.Io
