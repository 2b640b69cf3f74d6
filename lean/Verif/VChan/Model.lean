import Verif.Chan.Model
/-!
# Model of `cobalt::channel<void>`

Sources: `include/boost/cobalt/channel.hpp:209-321`,
`include/boost/cobalt/impl/channel.hpp:326-426` and `src/channel.cpp`.

Same conventions and simplifications as the model of `channel<T>`
(`Verif/Chan/Model.lean`): operations are numbered objects, one event is one entry
of control into the channel, everything else may happen between events. The
stored tokens are the counter `n_`, a 64 bit `std::size_t` that wraps around.
-/
namespace Cobalt.VChan

open Chan (Status Tok upd)

/-- Results of `co_await c.read()` and `co_await c.write()` (src/channel.cpp:48-133). -/
inductive Res where
  | ok | aborted | brokenPipe
deriving DecidableEq, Repr

/-- What can be observed: an await ends with a result. -/
inductive Obs where
  | doneR (i : Nat) (res : Res) | doneW (i : Nat) (res : Res)
deriving DecidableEq, Repr

/-- `read_op` and `write_op` (channel.hpp:232-273 and 275-313); `closedF` is the
member `closed` of `write_op`, unused for reads. -/
structure Op where
  status : Status := .absent
  cancelled : Bool := false
  direct : Bool := false
  closedF : Bool := false
  waiting : Bool := false
  slot : Bool := false
  txn : Bool := false
deriving DecidableEq, Repr

/-- The channel (channel.hpp:226-230, 315-316), its operations, and the
resumptions given to the executor. -/
structure St where
  /-- `limit_` -/
  limit : BitVec 64
  /-- `n_` -/
  n : BitVec 64 := 0
  closed : Bool := false
  rq : List Nat := []
  wq : List Nat := []
  posted : List Tok := []
  R : Nat → Op := fun _ => {}
  W : Nat → Op := fun _ => {}
  nextR : Nat := 0
  nextW : Nat := 0
  log : List Obs := []
  asserted : Bool := false
  ub : Bool := false

/-- `channel(limit)` (channel.hpp:212-215). -/
def St.init (limit : BitVec 64) : St := { limit }

/-- `read_op::await_ready` (channel.hpp:260-263). -/
def St.readReady (s : St) : Bool := BitVec.ult 0#64 s.n || s.closed

/-- `write_op::await_ready` (channel.hpp:301-304). -/
def St.writeReady (s : St) : Bool := BitVec.ult s.n s.limit || s.closed

/-- src/channel.cpp:67-77. -/
def St.wakeWriter (s : St) : St :=
  match s.wq with
  | [] => s
  | w :: rest =>
    let s := { s with asserted := s.asserted || decide (s.rq ≠ []) }
    if s.writeReady then
      if (s.W w).waiting then
        { s with wq := rest, W := upd s.W w { s.W w with waiting := false }
                 posted := s.posted ++ [.w w] }
      else { s with ub := true } -- posts an empty handle
    else s

/-- src/channel.cpp:111-121. -/
def St.wakeReader (s : St) : St :=
  match s.rq with
  | [] => s
  | i :: rest =>
    let s := { s with asserted := s.asserted || decide (s.wq ≠ []) }
    if s.readReady then
      if (s.R i).waiting then
        { s with rq := rest, R := upd s.R i { s.R i with waiting := false }
                 posted := s.posted ++ [.r i] }
      else { s with ub := true }
    else s

/-- The awaiting coroutine of read `i` leaves `await_resume` with `res`. -/
def St.endR (s : St) (i : Nat) (res : Res) : St :=
  { s with R := upd s.R i { s.R i with status := .done, slot := false, waiting := false }
           log := s.log ++ [.doneR i res] }

/-- The awaiting coroutine of write `i` leaves `await_resume` with `res`. -/
def St.endW (s : St) (i : Nat) (res : Res) : St :=
  { s with W := upd s.W i { s.W i with status := .done, slot := false, waiting := false }
           log := s.log ++ [.doneW i res] }

/-- `read_op::await_resume` (src/channel.cpp:48-79). -/
def St.resumeR (s : St) (i : Nat) : St :=
  if s.closed then s.endR i .brokenPipe
  else if (s.R i).cancelled then s.endR i .aborted
  else if (s.R i).direct then (s.endR i .ok).wakeWriter
  else { s.endR i .ok with n := s.n - 1#64 }.wakeWriter

/-- `write_op::await_resume` (src/channel.cpp:92-123). -/
def St.resumeW (s : St) (i : Nat) : St :=
  if (s.W i).closedF then s.endW i .brokenPipe
  else if (s.W i).cancelled then s.endW i .aborted
  else if (s.W i).direct then (s.endW i .ok).wakeReader
  else { s.endW i .ok with n := s.n + 1#64 }.wakeReader

/-- `read_op::interrupt_await` (channel.hpp:249-257). -/
def St.intR (s : St) (i : Nat) : St :=
  if (s.R i).status = .absent ∨ (s.R i).status = .gone then s
  else if (s.R i).direct then s
  else
    let s' := { s with R := upd s.R i { s.R i with cancelled := true } }
    if (s.R i).waiting then s'.resumeR i else s'

/-- `write_op::interrupt_await` (channel.hpp:290-298). -/
def St.intW (s : St) (i : Nat) : St :=
  if (s.W i).status = .absent ∨ (s.W i).status = .gone then s
  else if (s.W i).direct then s
  else
    let s' := { s with W := upd s.W i { s.W i with cancelled := true } }
    if (s.W i).waiting then s'.resumeW i else s'

def St.int (s : St) : Tok → St
  | .r i => s.intR i
  | .w i => s.intW i

/-- Reader `i` finds writer `w` waiting (impl/channel.hpp:362-380). -/
def St.takeFrom (s : St) (i w : Nat) (txn : Bool) : St :=
  { s with
    R := upd s.R i { s.R i with
      status := .susp, waiting := true, slot := false, txn := txn, direct := true }
    W := upd s.W w { s.W w with direct := true } }

/-- … then writer `w` is unlinked and released, reader `i` is posted
(impl/channel.hpp:381-386). -/
def St.handR (s : St) (i w : Nat) : St :=
  { s with
    wq := s.wq.erase w
    R := upd s.R i { s.R i with waiting := false }
    W := upd s.W w { s.W w with waiting := false }
    posted := s.posted ++ [Tok.r i] }

/-- Writer `i` finds reader `j` waiting (impl/channel.hpp:401-416). -/
def St.giveTo (s : St) (i j : Nat) (txn : Bool) : St :=
  { s with
    W := upd s.W i { s.W i with
      status := .susp, waiting := true, slot := false, txn := txn, direct := true }
    R := upd s.R j { s.R j with direct := true } }

/-- … then reader `j` is unlinked and released, writer `i` is posted
(impl/channel.hpp:417-423). -/
def St.handW (s : St) (i j : Nat) : St :=
  { s with
    rq := s.rq.erase j
    W := upd s.W i { s.W i with waiting := false }
    R := upd s.R j { s.R j with waiting := false }
    posted := s.posted ++ [Tok.w i] }

/-- No writer waits: the reader is queued (impl/channel.hpp:357-374). -/
def St.queueR (s : St) (i : Nat) (conn txn : Bool) : St :=
  { s with
    R := upd s.R i { s.R i with status := .susp, waiting := true, slot := conn, txn := txn }
    rq := s.rq ++ [i] }

/-- No reader waits: the writer is queued (impl/channel.hpp:396-410). -/
def St.queueW (s : St) (i : Nat) (conn txn : Bool) : St :=
  { s with
    W := upd s.W i { s.W i with status := .susp, waiting := true, slot := conn, txn := txn }
    wq := s.wq ++ [i] }

/-- `co_await` of a read operation (impl/channel.hpp:351-388). `conn`, `txn`,
`hits` as in `Chan.St.awaitR`. -/
def St.awaitR (s : St) (i : Nat) (conn txn : Bool) (hits : List Tok) : St :=
  if (s.R i).status ≠ .fresh then s
  else if s.readReady then s.resumeR i
  else if (s.R i).cancelled then s.resumeR i
  else match s.wq with
    | [] => s.queueR i conn txn
    | w :: _ =>
      if (s.W w).waiting then
        let s := s.takeFrom i w txn
        let s := if (s.W w).txn then hits.foldl St.int s else s
        (s.handR i w).resumeW w
      else { s with ub := true }

/-- `co_await` of a write operation (impl/channel.hpp:391-424). -/
def St.awaitW (s : St) (i : Nat) (conn txn : Bool) (hits : List Tok) : St :=
  if (s.W i).status ≠ .fresh then s
  else if s.writeReady then s.resumeW i
  else if (s.W i).cancelled then s.resumeW i
  else match s.rq with
    | [] => s.queueW i conn txn
    | j :: _ =>
      if (s.R j).waiting then
        let s := s.giveTo i j txn
        let s := if (s.R j).txn then hits.foldl St.int s else s
        (s.handW i j).resumeR j
      else { s with ub := true }

/-- `read_op::cancel_impl` (impl/channel.hpp:325-336). -/
def St.cancelR (s : St) (i : Nat) : St :=
  if (s.R i).slot then
    { s with
      R := upd s.R i { s.R i with cancelled := true, slot := false, waiting := false }
      rq := s.rq.erase i
      posted := if (s.R i).waiting then s.posted ++ [.r i] else s.posted }
  else s

/-- `write_op::cancel_impl` (impl/channel.hpp:338-349). -/
def St.cancelW (s : St) (i : Nat) : St :=
  if (s.W i).slot then
    { s with
      W := upd s.W i { s.W i with cancelled := true, slot := false, waiting := false }
      wq := s.wq.erase i
      posted := if (s.W i).waiting then s.posted ++ [.w i] else s.posted }
  else s

/-- `channel<void>::close` (src/channel.cpp:24-46), the two loops in closed form;
`asio::defer` counts as posting. -/
def St.close (s : St) : St :=
  { s with
    closed := true
    R := fun i => if i ∈ s.rq then
      { s.R i with cancelled := true, slot := false, waiting := false } else s.R i
    W := fun i => if i ∈ s.wq then
      { s.W i with cancelled := true, closedF := true, slot := false, waiting := false } else s.W i
    posted := s.posted ++ (s.rq.filter fun i => (s.R i).waiting).map .r
                       ++ (s.wq.filter fun i => (s.W i).waiting).map .w
    rq := []
    wq := [] }

/-- The executor runs the `k`-th posted resumption. -/
def St.run (s : St) (k : Nat) : St :=
  match s.posted[k]? with
  | none => s
  | some (.r i) => { s with posted := s.posted.eraseIdx k }.resumeR i
  | some (.w i) => { s with posted := s.posted.eraseIdx k }.resumeW i

/-- Destruction of a read operation; its hook unlinks itself (channel.hpp:232). -/
def St.dropR (s : St) (i : Nat) : St :=
  if (s.R i).status = .fresh ∨ (s.R i).status = .done then
    { s with R := upd s.R i { s.R i with status := .gone }, rq := s.rq.erase i }
  else s

/-- Destruction of a write operation (channel.hpp:275). -/
def St.dropW (s : St) (i : Nat) : St :=
  if (s.W i).status = .fresh ∨ (s.W i).status = .done then
    { s with W := upd s.W i { s.W i with status := .gone }, wq := s.wq.erase i }
  else s

/-- Everything the environment can do; `mkR`/`mkW` are `c.read()`/`c.write()`
(channel.hpp:318-319). -/
inductive Ev where
  | mkR
  | mkW
  | awaitR (i : Nat) (conn txn : Bool) (hits : List Tok)
  | awaitW (i : Nat) (conn txn : Bool) (hits : List Tok)
  | run (k : Nat)
  | cancelR (i : Nat) | cancelW (i : Nat)
  | intR (i : Nat) | intW (i : Nat)
  | dropR (i : Nat) | dropW (i : Nat)
  | close
deriving DecidableEq, Repr

def St.step (s : St) (e : Ev) : St :=
  if s.ub then s
  else match e with
    | .mkR => { s with R := upd s.R s.nextR { status := .fresh }, nextR := s.nextR + 1 }
    | .mkW => { s with W := upd s.W s.nextW { status := .fresh, closedF := s.closed }
                       nextW := s.nextW + 1 }
    | .awaitR i conn txn hits => s.awaitR i conn txn hits
    | .awaitW i conn txn hits => s.awaitW i conn txn hits
    | .run k => s.run k
    | .cancelR i => s.cancelR i
    | .cancelW i => s.cancelW i
    | .intR i => s.intR i
    | .intW i => s.intW i
    | .dropR i => s.dropR i
    | .dropW i => s.dropW i
    | .close => s.close

def St.steps (s : St) (es : List Ev) : St := es.foldl St.step s

/-- The state after the events `es` on a new channel with the given limit. -/
def exec (limit : BitVec 64) (es : List Ev) : St := (St.init limit).steps es

end Cobalt.VChan
