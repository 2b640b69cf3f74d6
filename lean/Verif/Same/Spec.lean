import Verif.VChan.Model
/-! A `channel<void>` next to a `channel<T>` with the same limit. -/
namespace Cobalt.Same

/-- The same thing happens to a `channel<void>`. -/
def ev : Chan.Ev → VChan.Ev
  | .mkR => .mkR
  | .mkW => .mkW
  | .awaitR i conn txn hits => .awaitR i conn txn hits
  | .awaitW i conn txn hits => .awaitW i conn txn hits
  | .run k => .run k
  | .cancelR i => .cancelR i
  | .cancelW i => .cancelW i
  | .intR i => .intR i
  | .intW i => .intW i
  | .dropR i => .dropR i
  | .dropW i => .dropW i
  | .close => .close

/-- The result of a read without its value. -/
def rres : Chan.RRes → VChan.Res
  | .value _ => .ok
  | .aborted => .aborted
  | .brokenPipe => .brokenPipe

def wres : Chan.WRes → VChan.Res
  | .ok => .ok
  | .aborted => .aborted
  | .brokenPipe => .brokenPipe

/-- The ends of the operations without the values. -/
def seen1 : Chan.Obs → Option VChan.Obs
  | .doneR i r => some (.doneR i (rres r))
  | .doneW i r => some (.doneW i (wres r))
  | _ => none

def seen (log : List Chan.Obs) : List VChan.Obs := log.filterMap seen1

/-- A read operation without the value it was handed. -/
def rop (o : Chan.ROp) : VChan.Op where
  status := o.status
  cancelled := o.cancelled
  direct := o.direct.isSome
  waiting := o.waiting
  slot := o.slot
  txn := o.txn

def wop (o : Chan.WOp) : VChan.Op where
  status := o.status
  cancelled := o.cancelled
  direct := o.direct
  closedF := o.closedF
  waiting := o.waiting
  slot := o.slot
  txn := o.txn

/-- A channel without its values: only their number is left. -/
def empty (c : Chan.St) : VChan.St where
  limit := BitVec.ofNat 64 c.cap
  n := BitVec.ofNat 64 c.buf.length
  closed := c.closed
  rq := c.rq
  wq := c.wq
  posted := c.posted
  R := fun i => rop (c.R i)
  W := fun i => wop (c.W i)
  nextR := c.nextR
  nextW := c.nextW
  log := seen c.log
  asserted := c.asserted
  ub := c.ub

/-- The channel is open, no assertion has failed and nothing was undefined. -/
structure Good (c : Chan.St) : Prop where
  ub : c.ub = false
  asserted : c.asserted = false
  closed : c.closed = false

/-- No write that was not begun, or is to be resumed, will still put a value into the buffer. -/
def NoLate (c : Chan.St) : Prop :=
  ∀ j, (c.W j).status = .fresh ∨ Chan.Tok.w j ∈ c.posted → (c.W j).cancelled = true ∨ (c.W j).direct = true

/-- There is no value in the buffer and none on its way to a read. -/
def Emptied (c : Chan.St) : Prop := c.buf = [] ∧ ∀ i, (c.R i).status = .susp → (c.R i).direct = none

end Cobalt.Same
