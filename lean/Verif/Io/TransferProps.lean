import Verif.Io.TransferLemmas
/-!
# Properties C41 and C56: `io::read`, `io::write` and their `_at` forms
-/
namespace Cobalt.Io

/-- **C41** For every buffer sequence, every start offset and every behaviour of
the stream that never reports more bytes than it was given:
the operation never hits undefined behaviour; the bytes moved are a prefix of
the buffer, in order, each exactly once, byte `i` at position `offset + i`;
when it completes, the reported count is the number of bytes moved; it completes
without error only when everything was moved; and an error it reports is one
the stream reported, or "aborted" after a cancellation. -/
theorem C41_transfer (buf : Seq) (offset : Nat) (steps : List Step)
    (xs : List Xfer) (res : Result) (hrun : transfer buf offset 0 steps = (xs, res))
    (honest : Honest xs) :
    res ≠ .ub ∧
    (∃ k, k ≤ buf.cells.length ∧ movedAll xs = (placed offset buf.cells).take k) ∧
    (∀ ec m, res = .done ec m → (movedAll xs).length = m) ∧
    (∀ m, res = .done none m → m = buf.cells.length ∧ movedAll xs = placed offset buf.cells) ∧
    (∀ e m, res = .done (some e) m →
      (∃ st ∈ steps, st.ec = some e) ∨ (e = aborted ∧ ∃ st ∈ steps, st.cancelled = true)) := by
  have key := transfer_main steps buf offset 0
  rw [hrun] at key
  obtain ⟨h1, h2, h3, h4, h5⟩ := key
  obtain ⟨hm, hle⟩ := h2 honest
  have htake : ∀ k, placed offset (buf.cells.take k) = (placed offset buf.cells).take k := by
    intro k
    rw [placed_eq_mapIdx, placed_eq_mapIdx]
    apply List.ext_getElem <;> simp
  refine ⟨h1, ⟨_, hle, by rw [hm, htake]⟩, ?_, ?_, h5⟩
  · intro ec m h
    rw [hm, length_placed, List.length_take, Nat.min_eq_left hle, h3 ec m h]; simp
  · intro m h
    have hall := h4 m honest h
    refine ⟨by rw [h3 none m h, hall]; simp, ?_⟩
    rw [hm, hall, List.take_length]

-- A write of five bytes in two buffers, moved 3 + 1 + 1 bytes: completes with 5.
example : (transfer ⟨⟨10, 2⟩, [⟨30, 3⟩]⟩ 7 0 [{ n := 3 }, { n := 1 }, { n := 1 }, {}]).2 = .done none 5
    ∧ Honest (transfer ⟨⟨10, 2⟩, [⟨30, 3⟩]⟩ 7 0 [{ n := 3 }, { n := 1 }, { n := 1 }, {}]).1 := by decide
-- An error after three bytes.
example : (transfer ⟨⟨10, 2⟩, [⟨30, 3⟩]⟩ 7 0 [{ n := 2 }, { n := 1, ec := some 4 }]).2
    = .done (some 4) 3 := by decide

/-- **C41** (termination) If every partial transfer that does not fail moves at
least one byte, the operation completes after at most `size + 1` passes. -/
theorem C41_terminates (buf : Seq) (offset : Nat) (steps : List Step)
    (hp : ∀ st ∈ steps, st.ec = none → 0 < st.n) (hlen : buf.cells.length < steps.length) :
    (transfer buf offset 0 steps).2 ≠ .pending :=
  transfer_progress steps buf offset 0 hp hlen

example : ∃ (buf : Seq) (steps : List Step), (∀ st ∈ steps, st.ec = none → 0 < st.n) ∧
    buf.cells.length < steps.length ∧ 0 < buf.cells.length :=
  ⟨⟨⟨10, 2⟩, [⟨30, 1⟩]⟩, [{ n := 1 }, { n := 1 }, { n := 1 }, { n := 1 }], by decide⟩

/-- **C56 fails**: no signal whatsoever reaches a composed operation; whatever
slot its handler carries, its cancellation state stays clear, so `io::read` and
`io::write` go on until the stream completes or fails. -/
theorem C56_cancellation_never_arrives (handlerSlot : Option Nat) (sigs : List Nat) :
    ((sigs.foldl CancelState.emit (compositionPromise handlerSlot))).cancelled = false := by
  have : ∀ (s : CancelState), s.source = none → s.cancelled = false →
      (sigs.foldl CancelState.emit s).cancelled = false := by
    induction sigs with
    | nil => intro s _ h; exact h
    | cons g gs ih =>
      intro s h1 h2
      exact ih _ (by simp [CancelState.emit, h1]) (by simp [CancelState.emit, h1, h2])
  exact this _ rfl rfl

/-- **C56**, what is missing: a cancellation state is set exactly if the signal of the slot it was made with is emitted. The
state of a composed operation is made with no slot; made with the slot of the handler it would be set by that handler's
signal and by no other. -/
theorem C56_emit_exact (src : Option Nat) (sigs : List Nat) :
    (sigs.foldl CancelState.emit (CancelState.ofSlot src)).cancelled = true ↔ ∃ g ∈ sigs, src = some g := by
  have : ∀ (s : CancelState), s.source = src →
      ((sigs.foldl CancelState.emit s).cancelled = true ↔ s.cancelled = true ∨ ∃ g ∈ sigs, src = some g) := by
    induction sigs with
    | nil => intro s _; simp
    | cons g gs ih =>
      intro s h1
      rw [List.foldl_cons, ih _ (by unfold CancelState.emit; split <;> simp [h1])]
      unfold CancelState.emit
      rw [h1]
      split <;> simp_all
  simpa [CancelState.ofSlot] using this (CancelState.ofSlot src) rfl

example : ([4, 7, 5].foldl CancelState.emit (CancelState.ofSlot (some 7))).cancelled = true ∧
    ([4, 5].foldl CancelState.emit (CancelState.ofSlot (some 7))).cancelled = false := by decide

/-- **C56**, what holds: if the operation's cancellation state *is* set when
tested, it stops without a further transfer and reports "aborted" with the count
so far. Missing: that a cancellation sets it, see
`C56_cancellation_never_arrives`. -/
theorem C56_cancelled_stops_partial (buf : Seq) (offset m : Nat) (st : Step) (rest : List Step)
    (h : st.cancelled = true) :
    transfer buf offset m (st :: rest) = ([], .done (some aborted) m) := by
  simp [transfer, h]

example : transfer ⟨⟨10, 2⟩, []⟩ 0 0 [{ n := 1 }, { cancelled := true }, { n := 1 }]
    = ([⟨0, ⟨⟨10, 2⟩, []⟩, 1⟩], .done (some aborted) 1) := by rfl

end Cobalt.Io
