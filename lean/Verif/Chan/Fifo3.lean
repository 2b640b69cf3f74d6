import Verif.Chan.Fifo2
/-! Helper: executions with one producer and one consumer. -/
namespace Cobalt.Chan

theorem noStale_wait {s : St} {cur : Option Tok} (h : WF s cur) (hn : s.noStale) :
    (∀ i ∈ s.rq, (s.R i).waiting = true) ∧ (∀ i ∈ s.wq, (s.W i).waiting = true) := by
  refine ⟨fun i hi => ?_, fun i hi => ?_⟩
  · have h1 := hn.1 i hi
    have := h.rlink i hi
    simp [h1] at this
    exact this.2.1
  · have h1 := hn.2 i hi
    have := h.wlink i hi
    simp [h1] at this
    exact this.2.2.1

/-- The state just after a read starts. -/
theorem JC.startR {s : St} {i : Nat} (j : JC s none) (hone : ∀ k, (s.R k).status ≠ .susp)
    (hp : s.buf ≠ [] ∨ s.closed = true ∨ (s.R i).cancelled = true) (hd : (s.R i).direct = none) :
    JC { s with log := s.log ++ [Obs.startR i] } (some (.r i)) := by
  have ht : ({ s with log := s.log ++ [Obs.startR i] } : St).taken = s.taken :=
    taken_frame (m := [_]) rfl (by simp) (fun _ => ⟨rfl, rfl⟩)
  have hf := j.fifo0 (by intro k hk; simp only [St.actR] at hk; grind)
  constructor
  case fifo1 => intro k d hk hd'; simp only [St.actR] at *; grind
  case fifo0 => rw [ht]; intro _; simpa using hf
  all_goals (cases j; simp only [St.actR, St.actW] at *; grind)

theorem taken_startW {s : St} {i : Nat} (hone : ∀ k, (s.W k).status ≠ .susp)
    (hnd : Obs.doneW i .ok ∉ s.log) :
    ({ s with log := s.log ++ [Obs.startW i] } : St).taken = s.taken := by
  unfold St.taken
  simp only [startsW_startW, List.filter_append]
  rw [List.filter_cons_of_neg]
  · simp
  · simp [hone, hnd]

/-- The state just after a write starts. -/
theorem JC.startW {s : St} {i : Nat} (j : JC s none) (hone : ∀ k, (s.W k).status ≠ .susp)
    (hp : s.buf.length < s.cap ∨ (s.W i).closedF = true ∨ (s.W i).cancelled = true)
    (hns : Obs.startW i ∉ s.log) (hnd : Obs.doneW i .ok ∉ s.log) :
    JC { s with log := s.log ++ [Obs.startW i] } (some (.w i)) := by
  have ht : ({ s with log := s.log ++ [Obs.startW i] } : St).taken = s.taken := by
    exact taken_startW hone hnd
  constructor
  case fifo1 => rw [ht]; have := j.fifo1; simpa [St.actR] using this
  case fifo0 => rw [ht]; have := j.fifo0; simpa [St.actR] using this
  case ndS => exact nodup_startsW_step j.ndS hns
  all_goals (cases j; simp only [St.actR, St.actW] at *; grind)

theorem JC.queueR {s : St} {i : Nat} (h : WF s none) (j : JC s none) (hone : ∀ k, (s.R k).status ≠ .susp)
    (hf : (s.R i).status = .fresh) (conn txn : Bool) :
    JC (({ s with log := s.log ++ [Obs.startR i] } : St).queueR i conn txn) none := by
  have ht : (({ s with log := s.log ++ [Obs.startR i] } : St).queueR i conn txn).taken = s.taken :=
    taken_frame (m := [_]) rfl (by simp) (fun _ => ⟨rfl, rfl⟩)
  have hd := h.rfresh i hf
  have hfi := j.fifo0 (by intro k hk; simp only [St.actR] at hk; grind)
  have hp := h.rpost i
  constructor
  case fifo1 => intro k d hk hd'; simp only [St.actR, St.queueR] at *; grind
  case fifo0 => rw [ht]; intro _; simpa [St.queueR] using hfi
  all_goals (cases j; simp only [St.actR, St.actW, St.queueR] at *; grind)

theorem JC.queueW {s : St} {i : Nat} (h : WF s none) (j : JC s none) (hone : ∀ k, (s.W k).status ≠ .susp)
    (hf : (s.W i).status = .fresh) (hns : Obs.startW i ∉ s.log) (hnd : Obs.doneW i .ok ∉ s.log) (conn txn : Bool) :
    JC (({ s with log := s.log ++ [Obs.startW i] } : St).queueW i conn txn) none := by
  have hd := h.wfresh i hf
  have ht : (({ s with log := s.log ++ [Obs.startW i] } : St).queueW i conn txn).taken = s.taken := by
    refine Eq.trans ?_ (taken_startW hone hnd)
    apply taken_congr
    · rfl
    · intro w _; simp only [St.queueW]; grind
  have hp := h.wpost i
  constructor
  case fifo1 => rw [ht]; have := j.fifo1; simpa [St.actR, St.queueW] using this
  case fifo0 => rw [ht]; have := j.fifo0; simpa [St.actR, St.queueW] using this
  case ndS => exact nodup_startsW_step j.ndS hns
  all_goals (cases j; simp only [St.actR, St.actW, St.queueW] at *; grind)

theorem JC.handR {s : St} {i w : Nat} (h : WF s none) (t : TK s none) (j : JC s none)
    (hone : ∀ k, (s.R k).status ≠ .susp)
    (hf : (s.R i).status = .fresh) (hw : (s.W w).waiting = true) (hcap : s.cap = 0) (txn : Bool) :
    JC ((({ s with log := s.log ++ [Obs.startR i] } : St).takeFrom i w txn).handR i w) (some (.w w)) := by
  have hd := h.rfresh i hf
  have hw1 := h.wwait w hw
  have hw2 := h.wlink w hw1.2
  have hb : s.buf = [] := by have := h.len; rw [hcap] at this; simpa using this
  have hne : Obs.doneW w .ok ∉ s.log := by
    intro hm; have := t.endW w _ hm; grind
  have ht : ((({ s with log := s.log ++ [Obs.startR i] } : St).takeFrom i w txn).handR i w).taken = s.taken ++ [w] := by
    apply taken_snoc
    · simp [St.takeFrom, St.handR]
    · exact j.ndS
    · exact j.lastW w (Or.inl hw1.1)
    · simp [hne, hw2.1]
    · right; simp only [St.takeFrom, St.handR]; grind
    · intro k hk; simp only [St.takeFrom, St.handR]; grind
  have hfi := j.fifo0 (by intro k hk; simp only [St.actR] at hk; grind)
  have hp := h.wpost w
  constructor
  case fifo1 =>
    rw [ht]; intro k d hk hd'
    have hkd : k = i ∧ d = w := by simp only [St.actR, St.takeFrom, St.handR] at *; grind
    obtain ⟨rfl, rfl⟩ := hkd
    rw [← hfi]
    simp [St.takeFrom, St.handR]
  case fifo0 =>
    intro hk
    have := hk i (by simp only [St.actR, St.takeFrom, St.handR]; grind)
    simp only [St.takeFrom, St.handR] at this
    grind
  all_goals (cases j; simp only [St.actR, St.actW, St.takeFrom, St.handR] at *; grind)

theorem JC.handW {s : St} {i w : Nat} (h : WF s none) (j : JC s none)
    (hone : ∀ k, (s.W k).status ≠ .susp) (hns : Obs.startW i ∉ s.log) (hnd : Obs.doneW i .ok ∉ s.log)
    (hf : (s.W i).status = .fresh) (hw : (s.R w).waiting = true) (hcap : s.cap = 0) (txn : Bool) :
    JC ((({ s with log := s.log ++ [Obs.startW i] } : St).giveTo i w txn).handW i w) (some (.r w)) := by
  have hd := h.wfresh i hf
  have hw1 := h.rwait w hw
  have hw2 := h.rlink w hw1.2
  have hb : s.buf = [] := by have := h.len; rw [hcap] at this; simpa using this
  have hnS : (startsW (s.log ++ [Obs.startW i])).Nodup := nodup_startsW_step j.ndS hns
  have ht : ((({ s with log := s.log ++ [Obs.startW i] } : St).giveTo i w txn).handW i w).taken = s.taken ++ [i] := by
    rw [← taken_startW hone hnd]
    apply taken_snoc
    · simp [St.giveTo, St.handW]
    · exact hnS
    · simp
    · simp [hnd, hd]
    · right; simp only [St.giveTo, St.handW]; grind
    · intro k hk; simp only [St.giveTo, St.handW]; grind
  have hfi := j.fifo0 (by
    intro k hk
    have := j.oneR k w hk (Or.inl hw1.1)
    rw [this]; exact hw2.1)
  have hp := h.rpost w
  have hp := h.wpost i
  constructor
  case fifo1 =>
    rw [ht]; intro k d hk hd'
    have hkd : k = w ∧ d = i := by
      have := j.oneR
      simp only [St.actR, St.giveTo, St.handW] at *; grind
    obtain ⟨rfl, rfl⟩ := hkd
    rw [← hfi]
    simp [St.giveTo, St.handW]
  case fifo0 =>
    intro hk
    have := hk w (Or.inr rfl)
    simp only [St.giveTo, St.handW] at this
    grind
  case ndS => exact hnS
  all_goals (cases j; simp only [St.actR, St.actW, St.giveTo, St.handW] at *; grind)

end Cobalt.Chan
