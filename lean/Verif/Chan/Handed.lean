import Verif.Chan.Persist
/-! Helper: on a channel with limit 0 a read that was handed a value returns it,
whatever happens afterwards. -/
namespace Cobalt.Chan

/-- Read `i` holds `w`, and can only return that. -/
structure Holds (i w : Nat) (s : St) : Prop where
  dir : (s.R i).direct = some w
  can : (s.R i).cancelled = false
  cap : s.cap = 0
  buf : s.buf = []
  res : ∀ res, Obs.doneR i res ∈ s.log → res = .value w

theorem Holds.wakeWriter {i w : Nat} {s : St} (h : Holds i w s) : Holds i w s.wakeWriter := by
  unfold St.wakeWriter
  split
  · exact h
  · dsimp only
    split
    · split <;> (constructor <;> (cases h; simp only at *; grind))
    · constructor <;> (cases h; simp only at *; grind)

theorem Holds.wakeReader {i w : Nat} {s : St} (h : Holds i w s) : Holds i w s.wakeReader := by
  unfold St.wakeReader
  split
  · exact h
  · dsimp only
    split
    · split <;> (constructor <;> (cases h; simp only at *; grind))
    · constructor <;> (cases h; simp only at *; grind)

theorem Holds.resumeR {i w : Nat} {s : St} (h : Holds i w s) (j : Nat) : Holds i w (s.resumeR j) := by
  have hb := h.buf
  have hd := h.dir
  have hc := h.can
  unfold St.resumeR
  split
  · constructor <;> (cases h; simp only [St.endR] at *; grind)
  · split
    · constructor <;> (cases h; simp only [St.endR] at *; grind)
    · split
      · constructor <;> (cases h; simp only at *; grind)
      · apply Holds.wakeWriter
        constructor <;> (cases h; simp only [St.endR] at *; grind)
      · rename_i hb' _; simp [hb] at hb'
      · rename_i hb' _; simp [hb] at hb'

theorem Holds.resumeW {i w : Nat} {s : St} (h : Holds i w s) (j : Nat) : Holds i w (s.resumeW j) := by
  have hb := h.buf
  have hd := h.dir
  have hc := h.cap
  unfold St.resumeW
  split
  · constructor <;> (cases h; simp only [St.endW] at *; grind)
  · split
    · constructor <;> (cases h; simp only [St.endW] at *; grind)
    · split
      · apply Holds.wakeReader
        constructor <;> (cases h; simp only [St.endW] at *; grind)
      · apply Holds.wakeReader
        constructor <;> (cases h; simp only [St.endW, pushBack] at *; grind)

theorem Holds.int {i w : Nat} {s : St} (h : Holds i w s) (x : Tok) : Holds i w (s.int x) := by
  cases x with
  | r j =>
    simp only [St.int, intR_eq]
    split
    · exact h
    · split <;> (constructor <;> (cases h; simp only [St.endR] at *; grind))
  | w j =>
    simp only [St.int, intW_eq]
    split
    · exact h
    · split <;> (constructor <;> (cases h; simp only [St.endW] at *; grind))

theorem Holds.hits {i w : Nat} (ts : List Tok) {s : St} (h : Holds i w s) : Holds i w (ts.foldl St.int s) := by
  induction ts generalizing s with
  | nil => exact h
  | cons x ts ih => exact ih (h.int x)

theorem Holds.step {i w : Nat} {s : St} (hw : WF s none) (h : Holds i w s) (e : Ev) : Holds i w (s.step e) := by
  have hd := h.dir
  unfold St.step
  split
  · exact h
  · cases e with
    | mkR =>
      have h1 := hw.rnew s.nextR (Nat.le_refl _)
      constructor <;> (cases h; simp only at *; grind)
    | mkW => constructor <;> (cases h; simp only at *; grind)
    | awaitR j c x l =>
      dsimp only
      rw [awaitR_eq]
      split
      · exact h
      · rename_i hf
        simp only [ne_eq, Decidable.not_not] at hf
        have hdn := hw.rfresh j hf
        have h0 : Holds i w { s with log := s.log ++ [Obs.startR j] } := by
          constructor <;> (cases h; simp only at *; grind)
        dsimp only
        split
        · exact h0.resumeR _
        · split
          · constructor <;> (cases h0; simp only [St.queueR] at *; grind)
          · split
            · refine (Holds.hits _ ?_).resumeW _
              constructor <;> (cases h0; simp only [St.takeFrom, St.handR] at *; grind)
            · constructor <;> (cases h0; simp only at *; grind)
    | awaitW j c x l =>
      dsimp only
      rw [awaitW_eq]
      split
      · exact h
      · have h0 : Holds i w { s with log := s.log ++ [Obs.startW j] } := by
          constructor <;> (cases h; simp only at *; grind)
        dsimp only
        split
        · exact h0.resumeW _
        · split
          · constructor <;> (cases h0; simp only [St.queueW] at *; grind)
          · rename_i k rest hq
            have hrl := hw.rlink k (by simp [hq])
            split
            · refine (Holds.hits _ ?_).resumeR _
              constructor <;> (cases h0; simp only [St.giveTo, St.handW] at *; grind)
            · constructor <;> (cases h0; simp only at *; grind)
    | run k =>
      dsimp only
      unfold St.run
      have h0 : Holds i w { s with posted := s.posted.eraseIdx k } := by
        constructor <;> (cases h; simp only at *; grind)
      split
      · exact h
      · exact h0.resumeR _
      · exact h0.resumeW _
    | cancelR j =>
      have := hw.rslot j
      dsimp only
      unfold St.cancelR
      split
      · constructor <;> (cases h; simp only at *; grind)
      · exact h
    | cancelW j =>
      dsimp only
      unfold St.cancelW
      split
      · constructor <;> (cases h; simp only at *; grind)
      · exact h
    | intR j => exact h.int (.r j)
    | intW j => exact h.int (.w j)
    | dropR j =>
      dsimp only
      unfold St.dropR
      split
      · constructor <;> (cases h; simp only at *; grind)
      · exact h
    | dropW j =>
      dsimp only
      unfold St.dropW
      split
      · constructor <;> (cases h; simp only at *; grind)
      · exact h
    | close =>
      have := hw.rlink i
      constructor <;> (cases h; simp only [St.close] at *; grind)

theorem Holds.steps {i w : Nat} (es : List Ev) : ∀ {s : St}, s.ub = true ∨ WF s none → Holds i w s →
    Holds i w (s.steps es) := by
  induction es with
  | nil => intro s _ h; exact h
  | cons e es ih =>
    intro s hw h
    rcases hw with hw | hw
    · rw [steps_ub hw]; exact h
    · exact ih (hw.step e) (h.step hw e)

end Cobalt.Chan
