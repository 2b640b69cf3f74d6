import Verif.Chan.Fifo
/-! Helper: steps with one producer and one consumer. -/
namespace Cobalt.Chan

theorem J.resumeR {s : St} {i : Nat} (h : WF s (some (.r i))) (j : J s (some (.r i)))
    (hns : ∀ w ∈ s.wq, (s.W w).waiting = true) : J (s.resumeR i) none := by
  have hc := h.rcur i rfl
  have hlen := h.len
  unfold St.resumeR
  split
  · rename_i hcl
    refine ⟨j.toJC.failR h (by simp) (by simp at hcl; exact hcl.2), j.rqb, j.wqb⟩
  · rename_i hcl
    split
    · rename_i hca
      have hd : (s.R i).direct = none := by
        cases hd : (s.R i).direct with
        | none => rfl
        | some d => have := h.rdir i d hd; simp [hca] at this
      refine ⟨j.toJC.failR h (by simp) hd, j.rqb, j.wqb⟩
    · rename_i hca
      split
      · rename_i hb hd
        exfalso
        have := j.posR i (Or.inr rfl) (by simpa using hca) hd
        simp [hb, hd] at this hcl
        simp [this] at hcl
      · rename_i d hb hd
        have hj := j.toJC.valDirect h hd hb
        have hcap := j.dirR i (by simp [hd])
        have hx : (s.endR i (.value d)).wakeWriter = s.endR i (.value d) := by
          rcases hq : s.wq with _ | ⟨w, rest⟩
          · unfold St.wakeWriter
            simp [St.endR, hq]
          · have h1 : s.rq = [] := by have := h.excl; simp [hq] at this; exact this
            have h2 : s.closed = false := by have := h.closedQ; grind
            exact wakeWriter_noop h1 (Or.inr (by simp [St.writeReady, St.endR, hb, hcap, h2]))
        rw [hx]
        exact ⟨hj, j.rqb, j.wqb⟩
      · rename_i b bs hb hd
        have hj := j.toJC.valFront h hd hb
        have hr : s.rq = [] := by
          by_cases hr : s.rq = []
          · exact hr
          · have := j.rqb hr; simp [hb] at this
        apply J.wakeWriter _ hj hr
        · simp only [St.endR]; simp [hb] at hlen; omega
        · exact hns
        · exact (h.endR _).setBuf' bs (by simp only [St.endR]; simp [hb] at hlen; omega)
      · rename_i b bs d hb hd
        exfalso
        have := j.dirR i (by simp [hd])
        simp [hb] at hlen
        omega

theorem J.resumeW {s : St} {i : Nat} (h : WF s (some (.w i))) (t : TK s (some (.w i))) (j : J s (some (.w i)))
    (hns : ∀ w ∈ s.rq, (s.R w).waiting = true) : J (s.resumeW i) none := by
  have hc := h.wcur i rfl
  have hlen := h.len
  unfold St.resumeW
  split
  · rename_i hcl
    have hd : (s.W i).direct = false := by have := h.wdir i; grind
    exact ⟨j.toJC.failW h (by simp) hd, j.rqb, j.wqb⟩
  · rename_i hcl
    split
    · rename_i hca
      have hd : (s.W i).direct = false := by have := h.wdir i; grind
      exact ⟨j.toJC.failW h (by simp) hd, j.rqb, j.wqb⟩
    · rename_i hca
      split
      · rename_i hd
        have hj := j.toJC.okDirect h hd
        have hcap := j.dirW i hd
        have hb : s.buf = [] := by
          have := h.len; rw [hcap] at this; simpa using this
        have hx : (s.endW i .ok).wakeReader = s.endW i .ok := by
          rcases hq : s.rq with _ | ⟨w, rest⟩
          · unfold St.wakeReader
            simp [St.endW, hq]
          · have h1 : s.wq = [] := by have := h.excl; simp [hq] at this; exact this
            have h2 : s.closed = false := by have := h.closedQ; grind
            exact wakeReader_noop h1 (Or.inr (by simp [St.readReady, St.endW, hb, h2]))
        rw [hx]
        exact ⟨hj, j.rqb, j.wqb⟩
      · rename_i hd
        obtain ⟨hl, hj⟩ := j.toJC.okPush h t (by simpa using hcl) (by simpa using hca) (by simpa using hd)
        have hpb : pushBack s.cap s.buf i = s.buf ++ [i] := by
          unfold pushBack
          rw [if_neg (by omega), if_neg (by omega)]
        have hw : s.wq = [] := by
          by_cases hr : s.wq = []
          · exact hr
          · have := j.wqb hr; omega
        rw [hpb]
        apply J.wakeReader _ hj hw
        · simp
        · exact hns
        · exact (h.endW _).setBuf _ _ (by simp only [St.endW]; simp; omega)

theorem taken_endW_fail {s : St} {i : Nat} {res : WRes} (hr : res ≠ .ok) (hd : (s.W i).direct = false) (c : Bool) :
    (({ s with W := upd s.W i { s.W i with cancelled := c } } : St).endW i res).taken = s.taken := by
  apply taken_congr
  · simp [St.endW]
  · intro w _; simp only [St.endW]; grind

theorem J.int {s : St} {cur : Option Tok} (h : WF s cur) (j : J s cur) (x : Tok) : J (s.int x) cur := by
  cases x with
  | r i =>
    simp only [St.int, intR_eq]
    split
    · exact j
    · rename_i hc
      have hd : (s.R i).direct = none := by
        simp only [not_or] at hc
        simpa using hc.2.2
      have hwt := h.rwait i
      split
      · rename_i hw
        have ht : (({ s with R := upd s.R i { s.R i with cancelled := true } } : St).endR i (if s.closed && s.buf = [] then .brokenPipe else .aborted)).taken = s.taken :=
          taken_frame (m := [_]) rfl (by simp) (fun _ => ⟨rfl, rfl⟩)
        have hdl : delivered (s.log ++ [Obs.doneR i (if s.closed && s.buf = [] then .brokenPipe else .aborted)]) = delivered s.log :=
          delivered_fail _ _ _ (by intro w; split <;> simp)
        refine ⟨?_, j.rqb, j.wqb⟩
        constructor
        case fifo1 =>
          rw [ht]
          have := j.fifo1
          intro k d hk hk'
          simp only [St.endR, hdl, St.actR] at *
          grind
        case fifo0 =>
          rw [ht]
          have := j.fifo0
          intro hk
          simp only [St.endR, hdl, St.actR] at *
          grind
        all_goals (cases j.toJC; simp only [St.endR, St.actR, St.actW] at *; grind)
      · rename_i hw
        have ht : ({ s with R := upd s.R i { s.R i with cancelled := true } } : St).taken = s.taken :=
          taken_frame (m := []) (by simp) (by simp) (fun _ => ⟨rfl, rfl⟩)
        refine ⟨?_, j.rqb, j.wqb⟩
        constructor
        case fifo1 =>
          rw [ht]
          have := j.fifo1
          intro k d hk hk'
          simp only [St.actR] at *
          grind
        case fifo0 =>
          rw [ht]
          have := j.fifo0
          intro hk
          simp only [St.actR] at *
          grind
        all_goals (cases j.toJC; simp only [St.actR, St.actW] at *; grind)
  | w i =>
    simp only [St.int, intW_eq]
    split
    · exact j
    · rename_i hc
      have hd : (s.W i).direct = false := by
        simp only [not_or] at hc
        simpa using hc.2.2
      have hwt := h.wwait i
      split
      · rename_i hw
        have ht := taken_endW_fail (s := s) (i := i) (res := if (s.W i).closedF then .brokenPipe else .aborted)
          (by split <;> simp) hd true
        refine ⟨?_, j.rqb, j.wqb⟩
        constructor
        case fifo1 =>
          rw [ht]
          have := j.fifo1
          intro k d hk hk'
          simp only [St.endW, St.actR, delivered_doneW] at *
          grind
        case fifo0 =>
          rw [ht]
          have := j.fifo0
          intro hk
          simp only [St.endW, St.actR, delivered_doneW] at *
          grind
        all_goals (cases j.toJC; simp only [St.endW, St.actR, St.actW] at *; grind)
      · rename_i hw
        have ht : ({ s with W := upd s.W i { s.W i with cancelled := true } } : St).taken = s.taken :=
          taken_frame (m := []) (by simp) (by simp) (by intro k; simp only; grind)
        refine ⟨?_, j.rqb, j.wqb⟩
        constructor
        case fifo1 => rw [ht]; exact j.fifo1
        case fifo0 => rw [ht]; exact j.fifo0
        all_goals (cases j.toJC; simp only [St.actR, St.actW] at *; grind)

theorem J.hits {s : St} {cur : Option Tok} (h : WF s cur) (j : J s cur) (ts : List Tok) :
    J (ts.foldl St.int s) cur := by
  induction ts generalizing s with
  | nil => exact j
  | cons x ts ih => exact ih (h.int x) (j.int h x)

theorem int_rq (s : St) (x : Tok) : (s.int x).rq = s.rq ∧ (s.int x).wq = s.wq := by
  cases x with
  | r i => simp only [St.int, intR_eq]; split <;> [exact ⟨rfl, rfl⟩; (split <;> exact ⟨rfl, rfl⟩)]
  | w i => simp only [St.int, intW_eq]; split <;> [exact ⟨rfl, rfl⟩; (split <;> exact ⟨rfl, rfl⟩)]

theorem hits_rq (ts : List Tok) (s : St) : (ts.foldl St.int s).rq = s.rq ∧ (ts.foldl St.int s).wq = s.wq := by
  induction ts generalizing s with
  | nil => exact ⟨rfl, rfl⟩
  | cons x ts ih =>
    have h1 := ih (s.int x)
    have h2 := int_rq s x
    exact ⟨h1.1.trans h2.1, h1.2.trans h2.2⟩

end Cobalt.Chan
