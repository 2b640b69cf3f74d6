import Verif.Io.ReuseLemmas
/-!
# Property C118: io operations can be awaited again
-/
namespace Cobalt.Io

/-- **C118** the loop of the documentation, for every buffer and every device that never reports more than it was given:
no undefined behaviour; the bytes moved are an initial part of the buffer, each once and in order, also at the right
positions if the offset is advanced as well; if the loop is left and the device makes progress, everything has been moved;
if it is left by an exception, the operation's buffer is exactly what the transfers before the failing one left. -/
theorem C118_loop (adv : Bool) (o : Kept) (outs : List (Option Nat × Nat)) (xs : List Xfer) (r : Loop)
    (hrun : docLoop adv o outs = (xs, r)) (hh : Honest xs) :
    r ≠ .ub ∧
    (∃ k, k ≤ o.buffer.cells.length ∧ cellsAll xs = o.buffer.cells.take k) ∧
    (adv = true → InOrder o.offset o.buffer.cells xs) ∧
    (∀ o', r = .ended o' → Lively xs outs → cellsAll xs = o.buffer.cells) ∧
    (∀ e o', r = .threw e o' → ∃ x, xs.getLast? = some x ∧
      cellsAll xs.dropLast ++ o'.buffer.cells = o.buffer.cells) := by
  obtain ⟨h1, h2, h3, h4, h5, h6⟩ := docLoop_main adv outs o xs r hrun hh
  refine ⟨h1, ⟨_, h2, h3⟩, fun ha => ⟨_, h2, h4 ha⟩, ?_, ?_⟩
  · intro o' ho hl
    obtain ⟨g1, g2⟩ := h5 o' ho
    have hnil := g2 hl
    rw [g1, List.drop_eq_nil_iff] at hnil
    rw [h3, List.take_of_length_le hnil]
  · intro e o' ho
    obtain ⟨x, g1, g2⟩ := h6 e o' ho
    refine ⟨x, g1, ?_⟩
    have hxs : xs = xs.dropLast ++ [x] := eq_dropLast_append xs x g1
    have hxn : x.n ≤ x.buffer.cells.length := hh x (by rw [hxs]; simp)
    have hsum : (xs.map Xfer.n).sum = (xs.dropLast.map Xfer.n).sum + x.n := by
      have := congrArg (fun l => (l.map Xfer.n).sum) hxs
      simpa using this
    have hc : cellsAll xs = cellsAll xs.dropLast ++ x.buffer.cells.take x.n := by
      have := congrArg cellsAll hxs
      simpa [cellsAll] using this
    rw [hc, hsum, List.take_add] at h3
    have hlen : (cellsAll xs.dropLast).length = (xs.dropLast.map Xfer.n).sum := by
      have e1 := congrArg List.length h3
      simp only [List.length_append, List.length_take, List.length_drop] at e1
      omega
    have := List.append_inj h3 (by rw [hlen, List.length_take]; omega)
    rw [this.1, g2, hsum, Nat.add_sub_cancel, List.take_append_drop]

-- Two buffers of 2 and 3 bytes, moved as 3 + 2 + 0; and a failure of the second transfer.
example : Honest (docLoop true ⟨7, ⟨⟨10, 2⟩, [⟨30, 3⟩]⟩⟩ [(none, 3), (none, 2), (none, 0)]).1 ∧
    Lively (docLoop true ⟨7, ⟨⟨10, 2⟩, [⟨30, 3⟩]⟩⟩ [(none, 3), (none, 2), (none, 0)]).1 [(none, 3), (none, 2), (none, 0)] ∧
    (docLoop true ⟨7, ⟨⟨10, 2⟩, [⟨30, 3⟩]⟩⟩ [(none, 3), (none, 2), (none, 0)]).2 = .ended ⟨12, ⟨⟨0, 0⟩, []⟩⟩ ∧
    (docLoop true ⟨7, ⟨⟨10, 2⟩, [⟨30, 3⟩]⟩⟩ [(none, 3), (some 4, 0)]).2 = .threw 4 ⟨10, ⟨⟨31, 2⟩, []⟩⟩ := by decide

/-- **C118** the loop comes to its end: a device that makes progress is awaited at most once per byte and once more. -/
theorem C118_loop_ends (adv : Bool) (outs : List (Option Nat × Nat)) : ∀ (o : Kept),
    Honest (docLoop adv o outs).1 → Lively (docLoop adv o outs).1 outs → o.buffer.cells.length < outs.length →
    ∀ o', (docLoop adv o outs).2 ≠ .pending o' := by
  induction outs with
  | nil => intro o _ _ h; simp at h
  | cons out rest ih =>
    obtain ⟨ec, n⟩ := out
    intro o hh hl hlen
    unfold docLoop at hh hl ⊢
    cases ec with
    | some e => simp
    | none =>
      dsimp only at hh hl ⊢
      by_cases hn : n = 0
      · rw [if_pos hn]; simp
      · rw [if_neg hn] at hh hl ⊢
        obtain ⟨b, hadv, hcells⟩ := C39_drop_bytes o.buffer n
        simp only [hadv] at hh hl ⊢
        refine ih _ (fun x hx => hh x (List.mem_cons_of_mem _ hx)) (fun p hp => hl p (by simp [hp])) ?_
        dsimp only
        have hx : n ≤ o.buffer.cells.length := hh _ (List.mem_cons_self ..)
        rw [hcells, List.length_drop]
        simp only [List.length_cons] at hlen
        omega

example : Honest (docLoop false ⟨0, ⟨⟨10, 2⟩, []⟩⟩ [(none, 1), (none, 1), (none, 0)]).1 ∧
    Lively (docLoop false ⟨0, ⟨⟨10, 2⟩, []⟩⟩ [(none, 1), (none, 1), (none, 0)]).1 [(none, 1), (none, 1), (none, 0)] ∧
    (docLoop false ⟨0, ⟨⟨10, 2⟩, []⟩⟩ [(none, 1), (none, 1)]).2 = .pending ⟨0, ⟨⟨0, 0⟩, []⟩⟩ := by decide

/-- **C118 fails** for the loop as printed, over an operation with an offset: it is not advanced, so the second part
overwrites the first. -/
theorem C118_loop_violated : ∃ (o : Kept) (outs : List (Option Nat × Nat)),
    Honest (docLoop false o outs).1 ∧ Lively (docLoop false o outs).1 outs ∧
    movedAll (docLoop false o outs).1 = [(7, 10), (7, 11)] ∧
    placed o.offset o.buffer.cells = [(7, 10), (8, 11)] :=
  ⟨⟨7, ⟨⟨10, 2⟩, []⟩⟩, [(none, 1), (none, 1), (none, 0)], by decide⟩

/-- **C118** positions: over an operation with an offset the loop as printed is right exactly if at most the first transfer
moves bytes. -/
theorem C118_loop_exact (o : Kept) (outs : List (Option Nat × Nat)) (xs : List Xfer) (r : Loop)
    (hrun : docLoop false o outs = (xs, r)) (hh : Honest xs) (hsz : o.buffer.cells.length < 2 ^ 64) :
    InOrder o.offset o.buffer.cells xs ↔ ∀ x ∈ xs.tail, x.n = 0 := by
  cases outs with
  | nil =>
    simp only [docLoop, Prod.mk.injEq] at hrun
    obtain ⟨rfl, rfl⟩ := hrun
    simp only [List.tail_nil, List.not_mem_nil, false_implies, implies_true, iff_true]
    exact ⟨0, by simp, by simp [movedAll, placed]⟩
  | cons out rest =>
    obtain ⟨ec, n⟩ := out
    unfold docLoop at hrun
    have one : ∀ x : Xfer, Honest [x] → x.offset = o.offset → x.buffer = o.buffer →
        InOrder o.offset o.buffer.cells [x] := by
      intro x hx h1 h2
      refine ⟨x.n, by rw [← h2]; exact hx x (by simp), ?_⟩
      simp [movedAll, Xfer.moved, h1, h2]
    cases ec with
    | some e =>
      simp only [Prod.mk.injEq] at hrun
      obtain ⟨rfl, rfl⟩ := hrun
      simpa using one _ hh rfl rfl
    | none =>
      dsimp only at hrun
      by_cases hn : n = 0
      · rw [if_pos hn] at hrun
        simp only [Prod.mk.injEq] at hrun
        obtain ⟨rfl, rfl⟩ := hrun
        simpa using one _ hh rfl rfl
      · rw [if_neg hn] at hrun
        obtain ⟨b, hadv, hcells⟩ := C39_drop_bytes o.buffer n
        simp only [hadv, Prod.mk.injEq] at hrun
        obtain ⟨rfl, -⟩ := hrun
        have hx : n ≤ o.buffer.cells.length := hh _ (List.mem_cons_self ..)
        simp only [Bool.false_eq_true, if_false] at hh ⊢
        -- all transfers of the rest are issued at the same offset
        have offs : ∀ (outs : List (Option Nat × Nat)) (p : Kept), ∀ x ∈ (docLoop false p outs).1, x.offset = p.offset := by
          intro outs
          induction outs with
          | nil => intro p x hx; simp [docLoop] at hx
          | cons out rest ih =>
            obtain ⟨ec, n⟩ := out
            intro p x hx
            unfold docLoop at hx
            cases ec with
            | some e => simp at hx; rw [hx]
            | none =>
              dsimp only at hx
              by_cases hn : n = 0
              · rw [if_pos hn] at hx; simp at hx; rw [hx]
              · rw [if_neg hn] at hx
                obtain ⟨b, hadv, -⟩ := C39_drop_bytes p.buffer n
                simp only [hadv, Bool.false_eq_true, if_false, List.mem_cons] at hx
                rcases hx with rfl | hx
                · rfl
                · exact ih { offset := p.offset, buffer := b } x hx
        have hoff := offs rest { offset := o.offset, buffer := b }
        have hmain := docLoop_main false rest { offset := o.offset, buffer := b } _ _ rfl
          (fun x hx => hh x (List.mem_cons_of_mem _ hx))
        have hh' : Honest (docLoop false { offset := o.offset, buffer := b } rest).1 :=
          fun x hx => hh x (List.mem_cons_of_mem _ hx)
        generalize docLoop false { offset := o.offset, buffer := b } rest = q at *
        simp only [List.tail_cons]
        have zero : ∀ l : List Xfer, (∀ x ∈ l, x.n = 0) → movedAll l = [] := by
          intro l hl
          simp only [movedAll, List.flatten_eq_nil_iff, List.mem_map]
          rintro _ ⟨x, hx, rfl⟩
          simp [Xfer.moved, hl x hx, placed]
        -- the first byte moved by transfers that all start at the same offset
        have first : ∀ l : List Xfer, Honest l → (∀ x ∈ l, x.offset = o.offset) → (¬ ∀ x ∈ l, x.n = 0) →
            ∃ a t, movedAll l = (o.offset % 2 ^ 64, a) :: t := by
          intro l
          induction l with
          | nil => intro _ _ h; simp at h
          | cons y l ih =>
            intro hl ho hne
            by_cases hy : y.n = 0
            · obtain ⟨a, t, h⟩ := ih (fun x hx => hl x (List.mem_cons_of_mem _ hx))
                (fun x hx => ho x (List.mem_cons_of_mem _ hx)) (by intro h; apply hne; simpa [hy] using h)
              exact ⟨a, t, by rw [movedAll_cons, h]; simp [Xfer.moved, hy, placed]⟩
            · have hyl := hl y (by simp)
              cases hc : y.buffer.cells with
              | nil => rw [hc] at hyl; simp at hyl; omega
              | cons a c =>
                cases hyn : y.n with
                | zero => omega
                | succ j =>
                  refine ⟨a, (c.take j).mapIdx (fun i b => ((o.offset + (i + 1)) % 2 ^ 64, b)) ++ movedAll l, ?_⟩
                  rw [movedAll_cons, Xfer.moved, hc, hyn, ho y (by simp), placed_eq_mapIdx, List.take_succ_cons,
                    List.mapIdx_cons, Nat.add_zero, List.cons_append]
        constructor
        · intro ⟨k, hk, he⟩
          apply Classical.byContradiction
          intro hne
          obtain ⟨a, t, hf⟩ := first q.1 hh' hoff hne
          rw [movedAll_cons, hf, placed_eq_mapIdx, Xfer.moved, placed_eq_mapIdx] at he
          have hg := congrArg (fun l => (l[n]?).map Prod.fst) he
          rw [List.getElem?_append_right (by simp only [List.length_mapIdx, List.length_take]; omega)] at hg
          simp only [List.length_mapIdx, List.length_take, Nat.min_eq_left hx, Nat.sub_self, List.getElem?_cons_zero,
            Option.map_some, List.getElem?_mapIdx, Option.map_map] at hg
          cases hq : (o.buffer.cells.take k)[n]? with
          | none => rw [hq] at hg; simp at hg
          | some c =>
            rw [hq] at hg
            simp only [Option.map_some, Function.comp_apply, Option.some.injEq] at hg
            have hlt : n < 2 ^ 64 := by omega
            omega
        · intro hz
          refine ⟨n, hx, ?_⟩
          rw [movedAll_cons, zero q.1 hz]
          simp [Xfer.moved]

example : ∃ (o : Kept) (outs : List (Option Nat × Nat)), Honest (docLoop false o outs).1 ∧
    o.buffer.cells.length < 2 ^ 64 ∧ (∀ x ∈ (docLoop false o outs).1.tail, x.n = 0) ∧
    (docLoop false o outs).1.length = 2 :=
  ⟨⟨7, ⟨⟨10, 2⟩, []⟩⟩, [(none, 2), (none, 0)], by decide⟩

/-- **C118 fails** for composed operations: one that has succeeded has used itself up. Awaited again it moves nothing and
reports success with no bytes. -/
theorem C118_spent (o : Kept) (steps : List Step) (hnc : ∀ st ∈ steps, st.cancelled = false)
    (hh : Honest (o.awaitAll 0 steps).xs) (m : Nat) (hok : (o.awaitAll 0 steps).res = .done none m)
    (hrest : (o.awaitAll 0 steps).rest ≠ []) :
    movedAll (o.awaitAll 0 steps).xs = placed o.offset o.buffer.cells ∧
    ((o.awaitAll 0 steps).op.awaitAll 0 (o.awaitAll 0 steps).rest).xs = [] ∧
    ((o.awaitAll 0 steps).op.awaitAll 0 (o.awaitAll 0 steps).rest).res = .done none 0 := by
  obtain ⟨s, d, h1, h2, -, -, -, h6⟩ := awaitAll_op steps o 0 hh
  obtain ⟨g1, g2⟩ := awaitAll_moved o 0 steps hh
  have e := awaitAll_transfer steps o 0
  have key := (transfer_main steps o.buffer o.offset 0).2.2.2.1
  rw [← e] at key
  have hall := key m hh hok
  have sum0 : ∀ (steps : List Step) (o : Kept) (m k : Nat), Honest (o.awaitAll m steps).xs →
      (o.awaitAll m steps).res = .done none k → (o.awaitAll m steps).op.buffer.cells = [] := by
    intro steps
    induction steps with
    | nil => intro o m k _ h; simp [Kept.awaitAll] at h
    | cons st rest ih =>
      intro o m k hh h
      unfold Kept.awaitAll at hh h ⊢
      split at h
      · next hc =>
        rw [if_pos hc] at hh
        rw [if_pos hc]
        cases he : st.ec with
        | some e => simp [he] at h
        | none =>
          obtain ⟨b, hadv, -⟩ := C39_drop_bytes o.buffer st.n
          simp only [he, hadv] at hh h ⊢
          exact ih _ _ _ (fun x hx => hh x (List.mem_cons_of_mem _ hx)) h
      · next hc =>
        rw [if_neg hc]
        split at h
        · simp at h
        · next hcan =>
          rw [if_neg hcan]
          have : o.buffer.bufferSize = 0 := by
            simp only [Bool.not_eq_true] at hcan
            simp only [hcan, Bool.not_false, Bool.and_true, decide_eq_true_eq] at hc
            omega
          rw [bufferSize_eq, List.length_eq_zero_iff] at this
          exact this
  have hnil := sum0 steps o 0 m hh hok
  refine ⟨by rw [g1, hall, List.take_length], ?_⟩
  cases hr : (o.awaitAll 0 steps).rest with
  | nil => exact absurd hr hrest
  | cons st rest =>
    have hst := hnc st (h6 st (by rw [hr]; simp))
    have hz : (o.awaitAll 0 steps).op.buffer.bufferSize = 0 := by rw [bufferSize_eq, hnil]; rfl
    unfold Kept.awaitAll
    simp [hz, hst]

/-- **C118 fails**, a witness: a `write` of two bytes is awaited twice. The second await reports success and no bytes. -/
theorem C118_violated : ∃ (o : Kept) (steps : List Step), Honest (o.awaits 2 steps).1 ∧ o.buffer.cells.length = 2 ∧
    (o.awaits 2 steps).2 = [.done none 2, .done none 0] ∧ (o.awaits 2 steps).1.length = 1 :=
  ⟨⟨7, ⟨⟨10, 2⟩, []⟩⟩, [{ n := 2 }, {}, { n := 2 }, {}], by decide⟩

/-- **C118**, what holds of composed operations: awaited as often as you like, also after failures, an operation continues
where it stopped, if transfers that fail move nothing: all awaits together move an initial part of the buffer, each byte once
and in order. Missing: a completed operation starting over, see `C118_spent`; transfers that move bytes and fail, see
`C118_resume_exact`. -/
theorem C118_partial (k : Nat) : ∀ (o : Kept) (steps : List Step), (∀ st ∈ steps, st.ec ≠ none → st.n = 0) →
    Honest (o.awaits k steps).1 → InOrder o.offset o.buffer.cells (o.awaits k steps).1 := by
  induction k with
  | zero => intro o steps _ _; exact ⟨0, by simp, by simp [Kept.awaits, movedAll, placed]⟩
  | succ k ih =>
    intro o steps hf hh
    simp only [Kept.awaits] at hh ⊢
    have hh1 : Honest (o.awaitAll 0 steps).xs := fun x hx => hh x (by simp [hx])
    obtain ⟨s, d, h1, h2, h3, h4, -, h6⟩ := awaitAll_op steps o 0 hh1
    obtain ⟨g1, g2⟩ := awaitAll_moved o 0 steps hh1
    have hd : d = 0 := by
      apply Classical.byContradiction
      intro hne
      obtain ⟨st, hs, he, hn⟩ := h4 hne
      have := hf st hs he
      omega
    subst hd
    obtain ⟨j, hj, hm⟩ := ih (o.awaitAll 0 steps).op (o.awaitAll 0 steps).rest (fun st hs => hf st (h6 st hs))
      (fun x hx => hh x (by simp [hx]))
    rw [h2, List.length_drop] at hj
    rw [h1, Nat.add_zero] at g1 g2
    refine ⟨s + j, by omega, ?_⟩
    rw [movedAll_append, g1, hm, h2, List.take_add, placed_append]
    congr 1
    apply placed_mod
    rw [h3, List.length_take, Nat.min_eq_left g2]
    simp [addOffset]

example : ∃ (o : Kept) (steps : List Step), (∀ st ∈ steps, st.ec ≠ none → st.n = 0) ∧ Honest (o.awaits 3 steps).1 ∧
    (o.awaits 3 steps).2 = [.done (some 4) 1, .done (some 4) 1, .done none 1] :=
  ⟨⟨7, ⟨⟨10, 2⟩, [⟨30, 1⟩]⟩⟩, [{ n := 1 }, { ec := some 4 }, { n := 1 }, { ec := some 4 }, { n := 1 }, {}], by decide⟩

/-- **C118** exactly: after a failure, awaiting the composed operation again continues in the right place if and only if the
transfer that failed had moved nothing or the second await moves nothing: the bytes of a failing transfer are counted
(write.cpp:20) but not dropped (write.cpp:21-24), so they are moved again. -/
theorem C118_resume_exact (o : Kept) (steps : List Step) (hnc : ∀ st ∈ steps, st.cancelled = false) (e m : Nat)
    (hfail : (o.awaitAll 0 steps).res = .done (some e) m) (hh : Honest (o.awaits 2 steps).1)
    (hsz : o.buffer.cells.length < 2 ^ 64) :
    InOrder o.offset o.buffer.cells (o.awaits 2 steps).1 ↔
      (∃ x, (o.awaitAll 0 steps).xs.getLast? = some x ∧ x.n = 0) ∨
      movedAll ((o.awaitAll 0 steps).op.awaitAll 0 (o.awaitAll 0 steps).rest).xs = [] := by
  simp only [Kept.awaits, List.append_nil] at hh ⊢
  have hh1 : Honest (o.awaitAll 0 steps).xs := fun x hx => hh x (by simp [hx])
  have hh2 : Honest ((o.awaitAll 0 steps).op.awaitAll 0 (o.awaitAll 0 steps).rest).xs := fun x hx => hh x (by simp [hx])
  obtain ⟨s, d, h1, h2, h3, -, h5, -⟩ := awaitAll_op steps o 0 hh1
  obtain ⟨x, hx, hxd⟩ := h5 e m hnc hfail
  obtain ⟨g1, g2⟩ := awaitAll_moved o 0 steps hh1
  obtain ⟨k1, k2⟩ := awaitAll_moved (o.awaitAll 0 steps).op 0 (o.awaitAll 0 steps).rest hh2
  generalize (o.awaitAll 0 steps).op.awaitAll 0 (o.awaitAll 0 steps).rest = t at *
  generalize o.awaitAll 0 steps = q at *
  generalize (t.xs.map Xfer.n).sum = j at *
  rw [h1] at g1 g2
  rw [h2, List.length_drop] at k2
  unfold InOrder
  rw [movedAll_append]
  have hlast : (∃ y, q.xs.getLast? = some y ∧ y.n = 0) ↔ d = 0 := by
    constructor
    · rintro ⟨y, hy, h0⟩
      rw [hx] at hy
      cases hy
      omega
    · intro h0; exact ⟨x, hx, by omega⟩
  rw [hlast, k1, h2, g1, placed_mod _ _ h3]
  have hnil : placed (o.offset + s) ((o.buffer.cells.drop s).take j) = [] ↔ j = 0 ∨ s = o.buffer.cells.length := by
    rw [← List.length_eq_zero_iff, length_placed, List.length_take, List.length_drop]
    omega
  rw [hnil]
  constructor
  · intro ⟨k, hk, he⟩
    apply Classical.byContradiction
    intro hne
    have hd : d ≠ 0 := fun h => hne (Or.inl h)
    have hj : j ≠ 0 := fun h => hne (Or.inr (Or.inl h))
    have hs : s < o.buffer.cells.length := by
      have : s ≠ o.buffer.cells.length := fun h => hne (Or.inr (Or.inr h))
      omega
    rw [placed_eq_mapIdx, placed_eq_mapIdx, placed_eq_mapIdx] at he
    have hg := congrArg (fun l => (l[s + d]?).map Prod.fst) he
    rw [List.getElem?_append_right (by simp only [List.length_mapIdx, List.length_take]; omega)] at hg
    simp only [List.length_mapIdx, List.length_take, Nat.min_eq_left g2, Nat.sub_self, List.getElem?_mapIdx,
      Option.map_map] at hg
    rw [List.getElem?_take_of_lt (by omega), List.getElem?_drop, List.getElem?_eq_getElem (by omega)] at hg
    cases hq : (o.buffer.cells.take k)[s + d]? with
    | none => rw [hq] at hg; simp at hg
    | some c =>
      rw [hq] at hg
      simp only [Option.map_some, Function.comp_apply, Option.some.injEq] at hg
      omega
  · rintro (rfl | rfl | rfl)
    · refine ⟨s + j, by omega, ?_⟩
      rw [Nat.add_zero, List.take_add, placed_append]
      congr 1
      apply placed_mod
      rw [List.length_take, Nat.min_eq_left (by omega)]
      simp [addOffset]
    · exact ⟨s + d, g2, by simp [placed]⟩
    · refine ⟨o.buffer.cells.length + d, g2, by simp [placed]⟩

example : ∃ (o : Kept) (steps : List Step), (∀ st ∈ steps, st.cancelled = false) ∧
    (o.awaitAll 0 steps).res = .done (some 4) 2 ∧ Honest (o.awaits 2 steps).1 ∧ o.buffer.cells.length < 2 ^ 64 ∧
    movedAll (o.awaits 2 steps).1 = [(7, 10), (8, 11), (8, 11), (9, 30)] :=
  ⟨⟨7, ⟨⟨10, 2⟩, [⟨30, 1⟩]⟩⟩, [{ n := 1 }, { ec := some 4, n := 1 }, { n := 2 }, {}], by decide⟩

end Cobalt.Io
