import Verif.Io.CancelModel
import Verif.Io.TransferProps
/-!
# Property C56: cancelling `io::read` and `io::write`
-/
namespace Cobalt.Io

/-! ## Specification -/

def OpEv.isEmit : OpEv → Bool
  | .emit _ => true
  | .complete .. => false

/-- A history without the cancellations. -/
def transfersOf (es : List OpEv) : List OpEv := es.filter fun e => !e.isEmit

/-- The completions of partial transfers, as the oracle of `transfer`. -/
def oracle (es : List OpEv) : List Step :=
  es.filterMap fun
    | .emit _ => none
    | .complete ec n => some { ec, n }

/-- **C56**: if the signal whose slot the handler has is emitted while the operation is waiting, the operation
ends with the partial transfer it is waiting for. It reports the error of that, or that it was aborted, and the bytes
moved. -/
def C56 : Prop := ∀ (g : Nat) (buf : Seq) (offset : Nat) (a mid : List OpEv) (ec : Option Nat) (n : Nat),
  (Op.run (some g) buf offset a).res = .pending → (∀ e ∈ mid, e.isEmit = true) →
  (Op.run (some g) buf offset (a ++ .emit g :: mid ++ [.complete ec n])).res =
    .done (some (ec.getD aborted)) ((Op.run (some g) buf offset a).m + n)

/-! ## Lemmas -/

theorem test_cs (o : Op) : o.test.cs = o.cs := by
  unfold Op.test; split
  · rfl
  · split <;> rfl

theorem step_cs (o : Op) (e : OpEv) (h : o.cs.source = none) : (o.step e).cs = o.cs := by
  cases e with
  | emit g => simp [Op.step, CancelState.emit, h]
  | complete ec n =>
    simp only [Op.step]
    split
    · cases ec with
      | some e => rfl
      | none =>
        simp only
        split
        · rfl
        · rw [test_cs]
    · rfl

theorem start_cs (slot : Option Nat) (buf : Seq) (offset : Nat) :
    (Op.start slot buf offset).cs = ⟨none, false⟩ := by
  rw [Op.start, test_cs]; rfl

theorem foldl_cs (es : List OpEv) : ∀ (o : Op), o.cs = ⟨none, false⟩ → (es.foldl Op.step o).cs = ⟨none, false⟩ := by
  induction es with
  | nil => exact fun o h => h
  | cons e es ih => exact fun o h => ih _ (by rw [step_cs o e (by rw [h]), h])

theorem emit_step (o : Op) (g : Nat) (h : o.cs = ⟨none, false⟩) : o.step (.emit g) = o := by
  obtain ⟨buf, offset, m, cs, res⟩ := o
  simp only at h
  subst h
  simp [Op.step, CancelState.emit]

theorem foldl_ignored (es : List OpEv) : ∀ (o : Op), o.cs = ⟨none, false⟩ →
    es.foldl Op.step o = (transfersOf es).foldl Op.step o := by
  induction es with
  | nil => exact fun _ _ => rfl
  | cons e es ih =>
    intro o h
    cases e with
    | emit g =>
      rw [List.foldl_cons, emit_step o g h]
      exact ih o h
    | complete ec n =>
      exact ih _ (by rw [step_cs o _ (by rw [h]), h])

theorem over_foldl (es : List OpEv) : ∀ (o : Op), o.res ≠ .pending → (es.foldl Op.step o).res = o.res := by
  induction es with
  | nil => exact fun _ _ => rfl
  | cons e es ih =>
    intro o h
    have : (o.step e).res = o.res := by cases e <;> simp [Op.step, h]
    rw [List.foldl_cons, ih _ (by rw [this]; exact h), this]

/-- An operation that waits or has just ended without error, and what `transfer` makes of the rest. -/
theorem foldl_transfer (es : List OpEv) : ∀ (o : Op), o.cs = ⟨none, false⟩ → o.res = .pending →
    (es.foldl Op.step o.test).res = (transfer o.buf o.offset o.m (oracle es ++ [({} : Step)])).2 := by
  induction es with
  | nil =>
    intro o h hr
    by_cases hb : o.buf.bufferSize > 0
    · obtain ⟨b, hb', -⟩ := C39_drop_size o.buf 0
      simp [Op.test, oracle, transfer, hb, h, hr, hb']
    · simp [Op.test, oracle, transfer, hb, h]
  | cons e es ih =>
    intro o h hr
    by_cases hb : o.buf.bufferSize > 0
    · have ht : o.test = o := by simp [Op.test, hb, h]
      cases e with
      | emit g =>
        have := ih o h hr
        rw [ht] at this ⊢
        rw [List.foldl_cons, emit_step o g h, this]; rfl
      | complete ec n =>
        rw [ht, List.foldl_cons]
        cases ec with
        | some e =>
          rw [over_foldl _ _ (by simp [Op.step, hr])]
          simp [Op.step, hr, oracle, transfer, hb]
        | none =>
          obtain ⟨b, hb', -⟩ := C39_drop_size o.buf n
          have := ih { o with m := o.m + n, buf := b, offset := addOffset o.offset n } h hr
          simp only [hr] at this
          simp only [Op.step, hr, if_true, hb']
          rw [this]
          simp [oracle, transfer, hb, hb']
    · have ht : o.test.res = .done none o.m := by simp [Op.test, hb, h]
      rw [over_foldl _ _ (by rw [ht]; simp), ht]
      cases hs : oracle (e :: es) ++ [({} : Step)] with
      | nil => simp at hs
      | cons st r =>
        have : st.cancelled = false := by
          have hm : st ∈ oracle (e :: es) ++ [({} : Step)] := by rw [hs]; simp
          rcases List.mem_append.1 hm with hm | hm
          · simp only [oracle, List.mem_filterMap] at hm
            obtain ⟨a, -, ha⟩ := hm
            cases a with
            | emit g => cases ha
            | complete ec n => cases ha; rfl
          · rw [List.mem_singleton.1 hm]
        simp [transfer, hb, this]

/-! ## Theorems -/

/-- **C56 exactly**: cancellations are ignored. The outcome of any history, whatever signals are emitted at
whatever times, is that of the same history without them, and is what `transfer` (C41) gives for a stream
that is never cancelled. -/
theorem C56_exact (slot : Option Nat) (buf : Seq) (offset : Nat) (es : List OpEv) :
    Op.run slot buf offset es = Op.run none buf offset (transfersOf es) ∧
    (Op.run slot buf offset es).res = (transfer buf offset 0 (oracle es ++ [({} : Step)])).2 := by
  have h0 : Op.start slot buf offset = Op.start none buf offset := rfl
  refine ⟨?_, ?_⟩
  · rw [Op.run, foldl_ignored es _ (start_cs slot buf offset), h0]; rfl
  · exact foldl_transfer es { buf, offset, cs := compositionPromise slot } rfl rfl

example : Op.run (some 3) ⟨⟨10, 2⟩, []⟩ 0 [.complete none 1, .emit 3, .complete none 1] =
    Op.run none ⟨⟨10, 2⟩, []⟩ 0 [.complete none 1, .complete none 1] ∧
    (Op.run (some 3) ⟨⟨10, 2⟩, []⟩ 0 [.complete none 1, .emit 3, .complete none 1]).res = .done none 2 := ⟨rfl, rfl⟩

/-- **C56 is violated**: an operation that was cancelled waits for the next transfer. -/
theorem C56_violated : ¬ C56 := by
  intro h
  have := h 3 ⟨⟨10, 2⟩, []⟩ 0 [] [] none 1 rfl (by simp)
  revert this
  decide

/-- Where what C56 asks for is met: if the transfer waited for fails by itself, and never otherwise. -/
theorem C56_met (g : Nat) (buf : Seq) (offset : Nat) (a mid : List OpEv) (ec : Option Nat) (n : Nat)
    (hp : (Op.run (some g) buf offset a).res = .pending) (hm : ∀ e ∈ mid, e.isEmit = true) :
    (Op.run (some g) buf offset (a ++ .emit g :: mid ++ [.complete ec n])).res =
      .done (some (ec.getD aborted)) ((Op.run (some g) buf offset a).m + n) ↔ ec ≠ none := by
  have hcs : (Op.run (some g) buf offset a).cs = ⟨none, false⟩ := foldl_cs a _ (start_cs _ _ _)
  have hmid : transfersOf (.emit g :: mid) = [] := by
    simp only [transfersOf, List.filter_eq_nil_iff]
    intro e he
    rcases List.mem_cons.1 he with rfl | he
    · simp [OpEv.isEmit]
    · simp [hm e he]
  have e1 : Op.run (some g) buf offset (a ++ .emit g :: mid ++ [.complete ec n]) =
      (Op.run (some g) buf offset a).step (.complete ec n) := by
    have hcs' : (a.foldl Op.step (Op.start (some g) buf offset)).cs = ⟨none, false⟩ := hcs
    rw [Op.run, List.foldl_append, List.foldl_append, foldl_ignored (.emit g :: mid) _ hcs', hmid]; rfl
  rw [e1]
  generalize Op.run (some g) buf offset a = o at *
  cases ec with
  | some e => simp [Op.step, hp]
  | none =>
    obtain ⟨b, hb, -⟩ := C39_drop_size o.buf n
    simp only [Op.step, hp, if_true, hb, ne_eq, not_true, iff_false]
    unfold Op.test
    simp only [hcs]
    split
    · simp [hp]
    · simp

/-! What is missing is the slot alone: with a cancellation state that has it, C56 holds. -/

theorem test_source (o : Op) : o.test.cs.source = o.cs.source := by rw [test_cs]

theorem step_source (o : Op) (e : OpEv) : (o.step e).cs.source = o.cs.source := by
  cases e with
  | emit g => simp only [Op.step, CancelState.emit]; split <;> rfl
  | complete ec n =>
    simp only [Op.step]
    split
    · cases ec with
      | some e => rfl
      | none =>
        simp only
        split
        · rfl
        · rw [test_cs]
    · rfl

theorem foldl_source (es : List OpEv) : ∀ (o : Op), (es.foldl Op.step o).cs.source = o.cs.source := by
  induction es with
  | nil => exact fun _ => rfl
  | cons e es ih => exact fun o => (ih _).trans (step_source o e)

theorem emits_cancelled (es : List OpEv) : ∀ (o : Op), (∀ e ∈ es, e.isEmit = true) → o.cs.cancelled = true →
    (es.foldl Op.step o).cs.cancelled = true ∧ (es.foldl Op.step o).res = o.res ∧
      (es.foldl Op.step o).m = o.m ∧ (es.foldl Op.step o).buf = o.buf := by
  induction es with
  | nil => exact fun _ _ h => ⟨h, rfl, rfl, rfl⟩
  | cons e es ih =>
    intro o he h
    cases e with
    | complete ec n => exact absurd (he (.complete ec n) (by simp)) (by simp [OpEv.isEmit])
    | emit g =>
      have h1 : (o.step (.emit g)).cs.cancelled = true := by
        simp only [Op.step, CancelState.emit]; split <;> simp [h]
      exact ih (o.step (.emit g)) (fun e h => he e (by simp [h])) h1

/-- An operation whose cancellation state had been given the slot of the handler. -/
def Op.runWith (cs : CancelState) (buf : Seq) (offset : Nat) (es : List OpEv) : Op :=
  es.foldl Op.step (Op.test { buf, offset, cs })

theorem runWith_code (slot : Option Nat) (buf : Seq) (offset : Nat) (es : List OpEv) :
    Op.run slot buf offset es = Op.runWith (compositionPromise slot) buf offset es := rfl

/-- If only the slot were passed on, C56 would hold. -/
theorem C56_if_passed_on (g : Nat) (buf : Seq) (offset : Nat) (a mid : List OpEv) (ec : Option Nat) (n : Nat)
    (hp : (Op.runWith (.ofSlot (some g)) buf offset a).res = .pending) (hm : ∀ e ∈ mid, e.isEmit = true) :
    (Op.runWith (.ofSlot (some g)) buf offset (a ++ .emit g :: mid ++ [.complete ec n])).res =
      .done (some (ec.getD aborted)) ((Op.runWith (.ofSlot (some g)) buf offset a).m + n) := by
  have hs : (Op.runWith (.ofSlot (some g)) buf offset a).cs.source = some g := by
    rw [Op.runWith, foldl_source, test_source]; rfl
  have e1 : Op.runWith (.ofSlot (some g)) buf offset (a ++ .emit g :: mid ++ [.complete ec n]) =
      (mid.foldl Op.step ((Op.runWith (.ofSlot (some g)) buf offset a).step (.emit g))).step (.complete ec n) := by
    rw [Op.runWith, List.foldl_append, List.foldl_append]; rfl
  rw [e1]
  generalize Op.runWith (.ofSlot (some g)) buf offset a = o at *
  have hc : (o.step (.emit g)).cs.cancelled = true := by simp [Op.step, CancelState.emit, hs]
  obtain ⟨k1, k2, k3, -⟩ := emits_cancelled mid (o.step (.emit g)) hm hc
  have k2 : (mid.foldl Op.step (o.step (.emit g))).res = .pending := k2.trans hp
  have k3 : (mid.foldl Op.step (o.step (.emit g))).m = o.m := k3
  generalize mid.foldl Op.step (o.step (.emit g)) = q at *
  cases ec with
  | some e => simp [Op.step, k2, k3]
  | none =>
    obtain ⟨b, hb, -⟩ := C39_drop_size q.buf n
    simp [Op.step, k2, hb, Op.test, k1, k3]

example : (Op.runWith (.ofSlot (some 3)) ⟨⟨10, 4⟩, []⟩ 0 [.complete none 1]).res = .pending ∧
    (Op.runWith (.ofSlot (some 3)) ⟨⟨10, 4⟩, []⟩ 0 [.complete none 1, .emit 3, .complete none 1]).res =
      .done (some aborted) 2 := ⟨rfl, rfl⟩

end Cobalt.Io
