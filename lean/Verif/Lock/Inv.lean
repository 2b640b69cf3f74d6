import Verif.Lock.Spec
import Verif.VChan.WakeStep
/-!
# Lemmas for C99: what the events do to the channel
-/
namespace Cobalt.Lock

open Chan (Status Tok upd)
open VChan (WF Obs Res)

/-- What is always so with a channel used in this way. -/
structure Ok (c : VChan.St) : Prop where
  wf : WF c none
  ub : c.ub = false
  opened : c.closed = false
  rq : c.rq = []
  dir : ∀ i, (c.W i).direct = false
  link : ∀ i ∈ c.wq, (c.W i).waiting = true
  cl : ∀ i, (c.W i).closedF = false
  postR : ∀ i, Tok.r i ∉ c.posted
  logW : ∀ i r, Obs.doneW i r ∈ c.log → (c.W i).status = .done ∨ (c.W i).status = .gone
  logR : ∀ i r, Obs.doneR i r ∈ c.log → i < c.nextR

theorem Ok.init (k : BitVec 64) : Ok (VChan.St.init k) := by
  refine ⟨WF.init k, rfl, rfl, rfl, fun _ => rfl, ?_, fun _ => rfl, ?_, ?_, ?_⟩ <;> simp [VChan.St.init]

theorem upd_upd {α : Type} (f : Nat → α) (i : Nat) (x y : α) : upd (upd f i x) i y = upd f i y := by
  funext j; simp only [VChan.upd_apply]; split <;> rfl

theorem steps_one (c : VChan.St) (a : VChan.Ev) : c.steps [a] = c.step a := rfl

theorem steps_two (c : VChan.St) (a b : VChan.Ev) : c.steps [a, b] = (c.step a).step b := rfl

/-- Coming in at once. -/
theorem steps_ready {c : VChan.St} (h : Ok c) (conn : Bool) (hr : c.writeReady = true) :
    c.steps [.mkW, .awaitW c.nextW conn false []] =
      { c with W := upd c.W c.nextW { status := .done }, nextW := c.nextW + 1, n := c.n + 1#64,
               log := c.log ++ [Obs.doneW c.nextW .ok] } := by
  have e1 : c.step .mkW = { c with W := upd c.W c.nextW { status := .fresh }, nextW := c.nextW + 1 } := by
    simp [VChan.St.step, h.ub, h.opened]
  have e0 : (upd c.W c.nextW { status := .fresh }) c.nextW = { status := .fresh } := by simp [VChan.upd_apply]
  rw [steps_two, e1]
  unfold VChan.St.step
  rw [if_neg (by simp [h.ub])]
  dsimp only
  unfold VChan.St.awaitW
  rw [if_neg (by simp [e0])]
  rw [if_pos (by simpa [VChan.St.writeReady] using hr)]
  unfold VChan.St.resumeW
  simp only [e0]
  simp only [Bool.false_eq_true, if_false, VChan.St.endW, e0, upd_upd]
  unfold VChan.St.wakeReader
  simp [h.rq]

/-- Having to wait. -/
theorem steps_full {c : VChan.St} (h : Ok c) (conn : Bool) (hr : c.writeReady = false) :
    c.steps [.mkW, .awaitW c.nextW conn false []] =
      { c with W := upd c.W c.nextW { status := .susp, waiting := true, slot := conn }, nextW := c.nextW + 1,
               wq := c.wq ++ [c.nextW] } := by
  have e1 : c.step .mkW = { c with W := upd c.W c.nextW { status := .fresh }, nextW := c.nextW + 1 } := by
    simp [VChan.St.step, h.ub, h.opened]
  have e0 : (upd c.W c.nextW { status := .fresh }) c.nextW = { status := .fresh } := by simp [VChan.upd_apply]
  rw [steps_two, e1]
  unfold VChan.St.step
  rw [if_neg (by simp [h.ub])]
  dsimp only
  unfold VChan.St.awaitW
  rw [if_neg (by simp [e0])]
  rw [if_neg (by simpa [VChan.St.writeReady] using hr)]
  simp only [e0]
  simp only [Bool.false_eq_true, if_false, h.rq, VChan.St.queueW, e0, upd_upd]

/-- Leaving. -/
theorem steps_leave {c : VChan.St} (h : Ok c) (conn : Bool) (hr : c.readReady = true) :
    c.steps [.mkR, .awaitR c.nextR conn false []] =
      ({ c with R := upd c.R c.nextR { status := .done }, nextR := c.nextR + 1, n := c.n - 1#64,
                log := c.log ++ [Obs.doneR c.nextR .ok] } : VChan.St).wakeWriter := by
  have e1 : c.step .mkR = { c with R := upd c.R c.nextR { status := .fresh }, nextR := c.nextR + 1 } := by
    simp [VChan.St.step, h.ub]
  have e0 : (upd c.R c.nextR { status := .fresh }) c.nextR = { status := .fresh } := by simp [VChan.upd_apply]
  rw [steps_two, e1]
  unfold VChan.St.step
  rw [if_neg (by simp [h.ub])]
  dsimp only
  unfold VChan.St.awaitR
  rw [if_neg (by simp [e0])]
  rw [if_pos (by simpa [VChan.St.readReady] using hr)]
  unfold VChan.St.resumeR
  simp only [e0]
  simp only [Bool.false_eq_true, if_false, VChan.St.endR, e0, upd_upd, h.opened]

/-- A woken coroutine runs. -/
theorem steps_run {c : VChan.St} (h : Ok c) {k i : Nat} (hk : c.posted[k]? = some (.w i)) :
    c.steps [.run k] = if (c.W i).cancelled = true
      then { c with posted := c.posted.eraseIdx k, log := c.log ++ [Obs.doneW i .aborted],
                    W := upd c.W i { c.W i with status := .done, slot := false, waiting := false } }
      else { c with posted := c.posted.eraseIdx k, log := c.log ++ [Obs.doneW i .ok], n := c.n + 1#64,
                    W := upd c.W i { c.W i with status := .done, slot := false, waiting := false } } := by
  rw [steps_one]
  unfold VChan.St.step
  rw [if_neg (by simp [h.ub])]
  dsimp only
  unfold VChan.St.run
  rw [hk]
  dsimp only
  unfold VChan.St.resumeW
  simp only [h.cl, h.dir, Bool.false_eq_true, if_false]
  split
  · simp [VChan.St.endW, h.dir, h.cl]
  · unfold VChan.St.wakeReader
    simp [h.rq, VChan.St.endW, h.dir, h.cl]

/-- A coroutine in line gives up. -/
theorem steps_quit {c : VChan.St} (h : Ok c) {i : Nat} (hs : (c.W i).status = .susp) (hw : (c.W i).waiting = true) :
    c.steps [.intW i, .dropW i] =
      { c with W := upd c.W i { c.W i with cancelled := true, status := .gone, slot := false, waiting := false },
               log := c.log ++ [Obs.doneW i .aborted], wq := c.wq.erase i } := by
  have e1 : c.step (.intW i) =
      { c with W := upd c.W i { c.W i with cancelled := true, status := .done, slot := false, waiting := false },
               log := c.log ++ [Obs.doneW i .aborted] } := by
    unfold VChan.St.step
    rw [if_neg (by simp [h.ub])]
    dsimp only
    unfold VChan.St.intW
    rw [if_neg (by simp [hs]), if_neg (by simp [h.dir]), if_pos hw]
    unfold VChan.St.resumeW
    simp [VChan.upd_apply, h.cl, VChan.St.endW, upd_upd]
  rw [steps_two, e1]
  unfold VChan.St.step
  rw [if_neg (by simp [h.ub])]
  dsimp only
  unfold VChan.St.dropW
  simp [VChan.upd_apply, upd_upd]

/-- One that has been woken gives up. -/
theorem steps_spurn {c : VChan.St} (h : Ok c) {i : Nat} (hs : (c.W i).status = .susp) (hw : (c.W i).waiting = false) :
    c.steps [.intW i, .dropW i] = { c with W := upd c.W i { c.W i with cancelled := true } } := by
  have e1 : c.step (.intW i) = { c with W := upd c.W i { c.W i with cancelled := true } } := by
    unfold VChan.St.step
    rw [if_neg (by simp [h.ub])]
    dsimp only
    unfold VChan.St.intW
    rw [if_neg (by simp [hs]), if_neg (by simp [h.dir]), if_neg (by simp [hw])]
  rw [steps_two, e1]
  unfold VChan.St.step
  rw [if_neg (by simp [h.ub])]
  dsimp only
  unfold VChan.St.dropW
  simp [VChan.upd_apply, hs]

end Cobalt.Lock
