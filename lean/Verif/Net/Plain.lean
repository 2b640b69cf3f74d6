import Verif.Pipe.Facts
/-! Helper: a channel that nobody cancels and that is closed only when no write is under way. -/
namespace Cobalt.Chan

/-- No operation was cancelled, except the reads that found the channel closed. -/
structure Plain (s : St) : Prop where
  canR : ∀ i, (s.R i).cancelled = true → s.closed = true ∧ s.buf = [] ∧ (s.R i).direct = none
  canW : ∀ j, (s.W j).cancelled = false
  cfW : ∀ j, (s.W j).closedF = true → s.closed = true
  openW : ∀ j, (s.W j).status = .fresh → s.closed = true → (s.W j).closedF = true
  suspW : ∀ j, (s.W j).status = .susp → s.closed = false
  resR : ∀ i res, Obs.doneR i res ∈ s.log → (∃ w, res = .value w) ∨ (res = .brokenPipe ∧ s.closed = true ∧ s.buf = [])
  resW : ∀ j res, Obs.doneW j res ∈ s.log →
    (res = .ok ∧ (s.W j).closedF = false) ∨ (res = .brokenPipe ∧ (s.W j).closedF = true)

theorem Plain.init (cap : Nat) : Plain (St.init cap) := by
  constructor <;> simp [St.init]

theorem Plain.wakeWriter {s : St} (h : Plain s) : Plain s.wakeWriter := by
  unfold St.wakeWriter
  split
  · exact h
  · dsimp only
    split
    · split <;> (constructor <;> (cases h; simp only [upd] at *; grind))
    · constructor <;> (cases h; simp only at *; grind)

theorem Plain.wakeReader {s : St} (h : Plain s) : Plain s.wakeReader := by
  unfold St.wakeReader
  split
  · exact h
  · dsimp only
    split
    · split <;> (constructor <;> (cases h; simp only [upd] at *; grind))
    · constructor <;> (cases h; simp only at *; grind)

theorem Plain.resumeR {s : St} (h : Plain s) (i : Nat) : Plain (s.resumeR i) := by
  unfold St.resumeR
  split
  · constructor <;> (cases h; simp only [St.endR, upd] at *; grind)
  · split
    · exfalso
      rename_i h1 h2
      have := h.canR i h2
      simp [this] at h1
    · split
      · constructor <;> (cases h; simp only at *; grind)
      all_goals
        apply Plain.wakeWriter
        constructor <;> (cases h; simp only [St.endR, upd] at *; grind)

theorem Plain.resumeW {s : St} (h : Plain s) (j : Nat) (ho : s.closed = true → (s.W j).closedF = true) :
    Plain (s.resumeW j) := by
  unfold St.resumeW
  split
  · constructor <;> (cases h; simp only [St.endW, upd] at *; grind)
  · split
    · rename_i h1 h2
      rw [h.canW j] at h2; cases h2
    · split
      all_goals
        apply Plain.wakeReader
        constructor <;> (cases h; simp only [St.endW, upd] at *; grind)

theorem Plain.awaitR {s : St} (h : Plain s) (i : Nat) (conn : Bool) : Plain (s.awaitR i conn false []) := by
  rw [awaitR_eq]
  split
  · exact h
  · dsimp only
    have h1 : Plain { s with log := s.log ++ [Obs.startR i] } := by
      constructor <;> (cases h; simp only at *; grind)
    split
    · exact h1.resumeR i
    · rename_i hr
      have hc : s.closed = false := by
        simp only [St.readReady, not_or] at hr
        cases hcl : s.closed <;> simp_all
      split
      · constructor <;> (cases h1; simp only [St.queueR, upd] at *; grind)
      · split
        · rw [ite_self]
          apply Plain.resumeW
          · constructor <;> (cases h1; simp only [List.foldl_nil, St.takeFrom, St.handR, upd] at *; grind)
          · simp [St.takeFrom, St.handR, hc]
        · constructor <;> (cases h1; simp only at *; grind)

theorem Plain.awaitW {s : St} (h : Plain s) (j : Nat) (conn : Bool) : Plain (s.awaitW j conn false []) := by
  rw [awaitW_eq]
  split
  · exact h
  · rename_i hf
    have hf : (s.W j).status = .fresh := Classical.byContradiction hf
    dsimp only
    have h1 : Plain { s with log := s.log ++ [Obs.startW j] } := by
      constructor <;> (cases h; simp only at *; grind)
    split
    · exact h1.resumeW j (h.openW j hf)
    · rename_i hr
      have hc : s.closed = false := by
        simp only [St.writeReady, not_or] at hr
        cases hcl : s.closed <;> simp_all
      split
      · constructor <;> (cases h1; simp only [St.queueW, upd] at *; grind)
      · split
        · rw [ite_self]
          apply Plain.resumeR
          constructor <;> (cases h1; simp only [List.foldl_nil, St.giveTo, St.handW, upd] at *; grind)
        · constructor <;> (cases h1; simp only at *; grind)

theorem Plain.run {s : St} (h : Plain s) (k : Nat) (hp : ∀ j, Tok.w j ∈ s.posted → (s.W j).status = .susp) :
    Plain (s.run k) := by
  unfold St.run
  split
  · exact h
  · apply Plain.resumeR
    constructor <;> (cases h; simp only at *; grind)
  · rename_i j hj
    apply Plain.resumeW
    · constructor <;> (cases h; simp only at *; grind)
    · have := h.suspW j (hp j (List.mem_of_getElem? hj))
      simp [this]

/-- The events of a channel in a network. -/
theorem Plain.step_run {s : St} (h : Plain s) (w : WF s none) (k : Nat) : Plain (s.step (.run k)) := by
  unfold St.step
  split
  · exact h
  · exact h.run k fun j hj => (w.wpost j hj).1

theorem Plain.step_read {s : St} (h : Plain s) (conn : Bool) :
    Plain ((s.step .mkR).step (.awaitR s.nextR conn false [])) := by
  have h1 : Plain (s.step .mkR) := by
    unfold St.step
    split
    · exact h
    · constructor <;> (cases h; simp only [upd] at *; grind)
  generalize s.step .mkR = t at *
  unfold St.step
  split
  · exact h1
  · exact h1.awaitR _ _

theorem Plain.step_write {s : St} (h : Plain s) (he : ∀ res, Obs.doneW s.nextW res ∉ s.log) (conn : Bool) :
    Plain ((s.step .mkW).step (.awaitW s.nextW conn false [])) := by
  have h1 : Plain (s.step .mkW) := by
    unfold St.step
    split
    · exact h
    · constructor <;> (cases h; simp only [upd] at *; grind)
  generalize s.step .mkW = t at *
  unfold St.step
  split
  · exact h1
  · exact h1.awaitW _ _

theorem Plain.step_dropR {s : St} (h : Plain s) (i : Nat) : Plain (s.step (.dropR i)) := by
  unfold St.step
  split
  · exact h
  · dsimp only; unfold St.dropR
    split
    · constructor <;> (cases h; simp only [upd] at *; grind)
    · exact h

theorem Plain.step_dropW {s : St} (h : Plain s) (i : Nat) : Plain (s.step (.dropW i)) := by
  unfold St.step
  split
  · exact h
  · dsimp only; unfold St.dropW
    split
    · constructor <;> (cases h; simp only [upd] at *; grind)
    · exact h

theorem Plain.step_close {s : St} (h : Plain s) (w : J s none) (hd : ∀ i ∈ s.rq, (s.R i).direct = none) (hq : s.wq = [])
    (hn : ∀ j, (s.W j).status ≠ .fresh ∧ (s.W j).status ≠ .susp) : Plain (s.step .close) := by
  have hb := w.rqb
  unfold St.step
  split
  · exact h
  · dsimp only; unfold St.close
    constructor <;> (cases h; simp only [hq] at *; grind)

/-- Whether the channel is closed, and whether it was when a write was made, stay the same. -/
structure CK (s s' : St) : Prop where
  closed : s'.closed = s.closed
  w : ∀ j, (s'.W j).closedF = (s.W j).closedF

theorem CK.refl (s : St) : CK s s := ⟨rfl, fun _ => rfl⟩
theorem CK.trans {s t u : St} (a : CK s t) (b : CK t u) : CK s u :=
  ⟨b.closed.trans a.closed, fun j => (b.w j).trans (a.w j)⟩

theorem CK.after {s t u : St} (b : CK t u) (a : CK s t) : CK s u := a.trans b

theorem CK.wakeWriter (s : St) : CK s s.wakeWriter := by
  unfold St.wakeWriter
  split
  · exact CK.refl s
  · dsimp only
    split
    · split
      · refine ⟨rfl, fun j => ?_⟩
        simp only [upd]; grind
      · exact ⟨rfl, fun _ => rfl⟩
    · exact ⟨rfl, fun _ => rfl⟩

theorem CK.wakeReader (s : St) : CK s s.wakeReader := by
  unfold St.wakeReader
  split
  · exact CK.refl s
  · dsimp only
    split
    · split <;> exact ⟨rfl, fun _ => rfl⟩
    · exact ⟨rfl, fun _ => rfl⟩

theorem CK.resumeR (s : St) (i : Nat) : CK s (s.resumeR i) := by
  unfold St.resumeR
  repeat' split
  all_goals first
    | exact CK.after (CK.wakeWriter _) ⟨rfl, fun _ => rfl⟩
    | exact ⟨rfl, fun _ => rfl⟩

theorem CK.resumeW (s : St) (i : Nat) : CK s (s.resumeW i) := by
  have h : ∀ res b a, CK s { s.endW i res with buf := b, asserted := a } := by
    intro res b a
    exact ⟨rfl, fun j => by simp only [St.endW, upd]; grind⟩
  unfold St.resumeW
  repeat' split
  · exact h _ s.buf s.asserted
  · exact h _ s.buf s.asserted
  · exact CK.trans (h _ s.buf s.asserted) (CK.wakeReader _)
  · exact CK.trans (h _ _ _) (CK.wakeReader _)

theorem CK.awaitR (s : St) (i : Nat) (conn : Bool) : CK s (s.awaitR i conn false []) := by
  rw [awaitR_eq]
  split
  · exact CK.refl s
  · dsimp only
    split
    · exact CK.after (CK.resumeR _ _) ⟨rfl, fun _ => rfl⟩
    · split
      · exact ⟨rfl, fun _ => rfl⟩
      · split
        · rw [ite_self]
          refine CK.trans ?_ (CK.resumeW _ _)
          exact ⟨rfl, fun j => by simp only [List.foldl_nil, St.takeFrom, St.handR, upd]; grind⟩
        · exact ⟨rfl, fun _ => rfl⟩

theorem CK.awaitW (s : St) (i : Nat) (conn : Bool) : CK s (s.awaitW i conn false []) := by
  rw [awaitW_eq]
  split
  · exact CK.refl s
  · dsimp only
    split
    · exact CK.after (CK.resumeW _ _) ⟨rfl, fun _ => rfl⟩
    · split
      · exact ⟨rfl, fun j => by simp only [St.queueW, upd]; grind⟩
      · split
        · rw [ite_self]
          refine CK.trans ?_ (CK.resumeR _ _)
          exact ⟨rfl, fun j => by simp only [List.foldl_nil, St.giveTo, St.handW, upd]; grind⟩
        · exact ⟨rfl, fun _ => rfl⟩

theorem CK.step_run (s : St) (k : Nat) : CK s (s.step (.run k)) := by
  unfold St.step
  split
  · exact CK.refl s
  · dsimp only; unfold St.run
    split
    · exact CK.refl s
    · exact CK.after (CK.resumeR _ _) ⟨rfl, fun _ => rfl⟩
    · exact CK.after (CK.resumeW _ _) ⟨rfl, fun _ => rfl⟩

theorem CK.step_awaitR (s : St) (i : Nat) (conn : Bool) : CK s (s.step (.awaitR i conn false [])) := by
  unfold St.step
  split
  · exact CK.refl s
  · exact CK.awaitR ..

theorem CK.step_awaitW (s : St) (i : Nat) (conn : Bool) : CK s (s.step (.awaitW i conn false [])) := by
  unfold St.step
  split
  · exact CK.refl s
  · exact CK.awaitW ..

theorem CK.step_read (s : St) (i : Nat) (conn : Bool) : CK s ((s.step .mkR).step (.awaitR i conn false [])) := by
  refine CK.trans ?_ (CK.step_awaitR _ _ _)
  unfold St.step
  split
  · exact CK.refl s
  · exact ⟨rfl, fun _ => rfl⟩

theorem CK.step_dropR (s : St) (i : Nat) : CK s (s.step (.dropR i)) := by
  unfold St.step
  split
  · exact CK.refl s
  · dsimp only; unfold St.dropR
    split <;> exact ⟨rfl, fun _ => rfl⟩

theorem CK.step_dropW (s : St) (i : Nat) : CK s (s.step (.dropW i)) := by
  unfold St.step
  split
  · exact CK.refl s
  · dsimp only; unfold St.dropW
    split
    · exact ⟨rfl, fun j => by simp only [upd]; grind⟩
    · exact CK.refl s

/-- A new write notes whether the channel is closed. -/
theorem closed_write {s : St} (hu : s.ub = false) (conn : Bool) :
    ((s.step .mkW).step (.awaitW s.nextW conn false [])).closed = s.closed ∧
    (((s.step .mkW).step (.awaitW s.nextW conn false [])).W s.nextW).closedF = s.closed ∧
    ∀ j, j ≠ s.nextW → (((s.step .mkW).step (.awaitW s.nextW conn false [])).W j).closedF = (s.W j).closedF := by
  have h := CK.step_awaitW (s.step .mkW) s.nextW conn
  have hm : s.step .mkW = { s with W := upd s.W s.nextW { status := .fresh, closedF := s.closed },
                                   nextW := s.nextW + 1 } := by simp [St.step, hu]
  refine ⟨by rw [h.closed, hm], by rw [h.w, hm]; simp [upd], fun j hj => by rw [h.w, hm]; simp [upd, hj]⟩

end Cobalt.Chan
