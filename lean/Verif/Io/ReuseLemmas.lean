import Verif.Io.TransferLemmas
import Verif.Io.ReuseSpec
/-! Helper lemmas for `ReuseProps`. -/
namespace Cobalt.Io

theorem placed_mod (a b : Nat) (h : a % 2 ^ 64 = b % 2 ^ 64) (c : List Nat) : placed a c = placed b c := by
  simp only [placed_eq_mapIdx]
  apply List.mapIdx_eq_mapIdx_iff.2
  intro i _
  simp only [Prod.mk.injEq, and_true]
  omega

theorem movedAll_append (a b : List Xfer) : movedAll (a ++ b) = movedAll a ++ movedAll b := by
  simp [movedAll]

theorem movedAll_cons (a : Xfer) (b : List Xfer) : movedAll (a :: b) = a.moved ++ movedAll b := by
  simp [movedAll]

/-- Awaiting a composed operation once is the loop of C41. -/
theorem awaitAll_transfer (steps : List Step) : ∀ (o : Kept) (m : Nat),
    ((o.awaitAll m steps).xs, (o.awaitAll m steps).res) = transfer o.buffer o.offset m steps := by
  induction steps with
  | nil => intro o m; rfl
  | cons st rest ih =>
    intro o m
    unfold Kept.awaitAll transfer
    split
    · cases st.ec with
      | some e => rfl
      | none =>
        dsimp only
        cases o.buffer.advance st.n with
        | none => rfl
        | some b =>
          have := ih { offset := addOffset o.offset st.n, buffer := b } (m + st.n)
          dsimp only at this ⊢
          rw [← this]
    · split <;> rfl

/-- What one await leaves in the object: `s` bytes have been dropped, and `d` further bytes were moved by a transfer that
failed. -/
theorem awaitAll_op (steps : List Step) : ∀ (o : Kept) (m : Nat), Honest (o.awaitAll m steps).xs →
    ∃ s d, ((o.awaitAll m steps).xs.map Xfer.n).sum = s + d ∧
      (o.awaitAll m steps).op.buffer.cells = o.buffer.cells.drop s ∧
      (o.awaitAll m steps).op.offset % 2 ^ 64 = (o.offset + s) % 2 ^ 64 ∧
      (d ≠ 0 → ∃ st ∈ steps, st.ec ≠ none ∧ st.n = d) ∧
      (∀ e k, (∀ st ∈ steps, st.cancelled = false) → (o.awaitAll m steps).res = .done (some e) k →
        ∃ x, (o.awaitAll m steps).xs.getLast? = some x ∧ x.n = d) ∧
      (∀ st ∈ (o.awaitAll m steps).rest, st ∈ steps) := by
  induction steps with
  | nil =>
    intro o m _
    exact ⟨0, 0, by simp [Kept.awaitAll], by simp [Kept.awaitAll], by simp [Kept.awaitAll], by simp, by simp [Kept.awaitAll],
      by simp [Kept.awaitAll]⟩
  | cons st rest ih =>
    intro o m hh
    unfold Kept.awaitAll at hh ⊢
    split
    · next hc =>
      rw [if_pos hc] at hh
      cases he : st.ec with
      | some e =>
        simp only [he] at hh ⊢
        exact ⟨0, st.n, by simp, by simp, by simp, fun _ => ⟨st, by simp, by simp [he], rfl⟩, by simp,
          fun s h => List.mem_cons_of_mem _ h⟩
      | none =>
        obtain ⟨b, hadv, hcells⟩ := C39_drop_bytes o.buffer st.n
        simp only [he, hadv] at hh ⊢
        obtain ⟨s, d, h1, h2, h3, h4, h5, h6⟩ := ih { offset := addOffset o.offset st.n, buffer := b } (m + st.n)
          (fun x hx => hh x (List.mem_cons_of_mem _ hx))
        refine ⟨st.n + s, d, ?_, ?_, ?_, ?_, ?_, ?_⟩
        · simp only [List.map_cons, List.sum_cons, h1]; omega
        · rw [h2, hcells, List.drop_drop]
        · rw [h3]; simp only [addOffset]; omega
        · intro hd
          obtain ⟨x, hx, h⟩ := h4 hd
          exact ⟨x, List.mem_cons_of_mem _ hx, h⟩
        · intro e k hcn hr
          obtain ⟨x, hx, h⟩ := h5 e k (fun s hs => hcn s (List.mem_cons_of_mem _ hs)) hr
          exact ⟨x, by rw [List.getLast?_cons, hx]; rfl, h⟩
        · intro x hx; exact List.mem_cons_of_mem _ (h6 x hx)
    · split
      · next h =>
        refine ⟨0, 0, by simp, by simp, by simp, by simp, ?_, fun s h => List.mem_cons_of_mem _ h⟩
        intro e k hcn
        have := hcn st (by simp)
        simp [h] at this
      · exact ⟨0, 0, by simp, by simp, by simp, by simp, by simp, fun s h => List.mem_cons_of_mem _ h⟩

theorem awaitAll_moved (o : Kept) (m : Nat) (steps : List Step) (hh : Honest (o.awaitAll m steps).xs) :
    movedAll (o.awaitAll m steps).xs
      = placed o.offset (o.buffer.cells.take (((o.awaitAll m steps).xs.map Xfer.n).sum)) ∧
    ((o.awaitAll m steps).xs.map Xfer.n).sum ≤ o.buffer.cells.length := by
  have key := (transfer_main steps o.buffer o.offset m).2.1
  have e := awaitAll_transfer steps o m
  rw [← e] at key
  exact key hh

theorem le_sum_map (xs : List Xfer) (x : Xfer) (h : x ∈ xs) : x.n ≤ (xs.map Xfer.n).sum := by
  induction xs with
  | nil => simp at h
  | cons y ys ih =>
    simp only [List.map_cons, List.sum_cons]
    rcases List.mem_cons.1 h with rfl | h
    · omega
    · have := ih h; omega

theorem eq_dropLast_append (xs : List Xfer) (x : Xfer) (h : xs.getLast? = some x) : xs = xs.dropLast ++ [x] := by
  rcases List.eq_nil_or_concat xs with rfl | ⟨ys, y, rfl⟩
  · simp at h
  · simp at h ⊢; exact h

/-- Everything about one run of the loop of the documentation, for the induction. -/
theorem docLoop_main (adv : Bool) (outs : List (Option Nat × Nat)) : ∀ (o : Kept) (xs : List Xfer) (r : Loop),
    docLoop adv o outs = (xs, r) → Honest xs →
    r ≠ .ub ∧ (xs.map Xfer.n).sum ≤ o.buffer.cells.length ∧
    cellsAll xs = o.buffer.cells.take (xs.map Xfer.n).sum ∧
    (adv = true → movedAll xs = placed o.offset (o.buffer.cells.take (xs.map Xfer.n).sum)) ∧
    (∀ o', r = .ended o' → o'.buffer.cells = o.buffer.cells.drop (xs.map Xfer.n).sum ∧
      (Lively xs outs → o'.buffer.cells = [])) ∧
    (∀ e o', r = .threw e o' → ∃ x, xs.getLast? = some x ∧
      o'.buffer.cells = o.buffer.cells.drop ((xs.map Xfer.n).sum - x.n)) := by
  induction outs with
  | nil =>
    intro o xs r h _
    simp only [docLoop, Prod.mk.injEq] at h
    obtain ⟨rfl, rfl⟩ := h
    simp [cellsAll, movedAll, placed]
  | cons out rest ih =>
    obtain ⟨ec, n⟩ := out
    intro o xs r h hh
    unfold docLoop at h
    cases ec with
    | some e =>
      simp only [Prod.mk.injEq] at h
      obtain ⟨rfl, rfl⟩ := h
      have hx : n ≤ o.buffer.cells.length := hh _ (List.mem_singleton.2 rfl)
      refine ⟨by simp, by simpa using hx, by simp [cellsAll], by simp [movedAll, Xfer.moved], by simp, ?_⟩
      intro e' o' h'
      simp only [Loop.threw.injEq] at h'
      exact ⟨_, by simp; rfl, by simp [← h'.2]⟩
    | none =>
      dsimp only at h
      by_cases hn : n = 0
      · rw [if_pos hn] at h
        simp only [Prod.mk.injEq] at h
        obtain ⟨rfl, rfl⟩ := h
        subst hn
        refine ⟨by simp, by simp, by simp [cellsAll], by simp [movedAll, Xfer.moved], ?_, by simp⟩
        intro o' h'
        simp only [Loop.ended.injEq] at h'
        subst h'
        refine ⟨by simp, fun hl => Classical.byContradiction fun hne => ?_⟩
        have := hl ⟨{ offset := o.offset, buffer := o.buffer, n := 0 }, (none, 0)⟩ (by simp) rfl hne
        simp at this
      · rw [if_neg hn] at h
        obtain ⟨b, hadv, hcells⟩ := C39_drop_bytes o.buffer n
        simp only [hadv, Prod.mk.injEq] at h
        obtain ⟨rfl, rfl⟩ := h
        have hx : n ≤ o.buffer.cells.length := hh _ (List.mem_cons_self ..)
        obtain ⟨h1, h2, h3, h4, h5, h6⟩ := ih { offset := if adv then addOffset o.offset n else o.offset, buffer := b } _ _
          rfl (fun x hx => hh x (List.mem_cons_of_mem _ hx))
        generalize docLoop adv { offset := if adv then addOffset o.offset n else o.offset, buffer := b } rest = q at *
        dsimp only at h2 h3 h4 h5 h6
        rw [hcells] at h2 h3 h4 h5 h6
        rw [List.length_drop] at h2
        refine ⟨h1, by simp only [List.map_cons, List.sum_cons]; omega, ?_, ?_, ?_, ?_⟩
        · simp only [cellsAll, List.map_cons, List.flatten_cons, List.sum_cons] at h3 ⊢
          rw [h3, List.take_add]
        · intro ha
          subst ha
          have := h4 rfl
          simp only [movedAll_cons, this, List.map_cons, List.sum_cons]
          rw [List.take_add, placed_append]
          simp [Xfer.moved, Nat.min_eq_left hx]
        · intro o' ho
          obtain ⟨g1, g2⟩ := h5 o' ho
          refine ⟨by rw [g1, List.drop_drop]; simp, fun hl => g2 fun p hp => hl p ?_⟩
          simp [hp]
        · intro e o' ho
          obtain ⟨x, g1, g2⟩ := h6 e o' ho
          have hle : x.n ≤ (q.1.map Xfer.n).sum :=
            le_sum_map q.1 x (List.mem_of_getLast? g1)
          refine ⟨x, by rw [List.getLast?_cons, g1]; rfl, ?_⟩
          rw [g2, List.drop_drop]
          congr 1
          simp only [List.map_cons, List.sum_cons]
          omega

end Cobalt.Io
