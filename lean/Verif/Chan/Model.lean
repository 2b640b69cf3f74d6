/-!
# Model of `cobalt::channel<T>`

Sources: `include/boost/cobalt/channel.hpp:30-206` and
`include/boost/cobalt/impl/channel.hpp:34-323`.

The channel is a state machine. An *operation* is a `read_op`/`write_op` object,
named by a number; the value a write operation carries is named by that number
too, so "which value arrived" is visible. One event is one entry of control into
the channel; everything the code does until it hands control to a coroutine that
leaves `await_resume` is one step. What coroutines do then is more events, in any
order; so is the order in which the executor runs posted resumptions.

Simplifications, all over the file:
* an operation object is awaited at most once;
* operations are destroyed before they are awaited or after they were resumed,
  not while suspended (that only happens when the channel or the executor is
  destroyed);
* moving or copying a value never throws;
* `BOOST_ASSERT` failures are recorded in `asserted` and execution goes on as
  with assertions disabled; undefined behaviour sets `ub` and stops the machine.
-/
namespace Cobalt.Chan

/-- Life of an operation object; `susp` means a coroutine is suspended on it. -/
inductive Status where
  | absent | fresh | susp | done | gone
deriving DecidableEq, Repr

/-- Results of `co_await c.read()` (impl/channel.hpp:163-201). -/
inductive RRes where
  | value (w : Nat) | aborted | brokenPipe
deriving DecidableEq, Repr

/-- Results of `co_await c.write(v)` (impl/channel.hpp:278-323). -/
inductive WRes where
  | ok | aborted | brokenPipe
deriving DecidableEq, Repr

/-- A read or a write operation. -/
inductive Tok where
  | r (i : Nat) | w (i : Nat)
deriving DecidableEq, Repr

/-- What can be observed: an operation is awaited, an await ends with a result. -/
inductive Obs where
  | startR (i : Nat) | startW (i : Nat)
  | doneR (i : Nat) (res : RRes) | doneW (i : Nat) (res : WRes)
deriving DecidableEq, Repr

/-- `channel<T>::read_op` (channel.hpp:71-107). `waiting`: `awaited_from` is set.
`slot`: `cancel_impl` is installed in a connected slot. `txn`: the pointer
`begin_transaction` is set. Being linked into `read_queue_` is membership in
`St.rq`. -/
structure ROp where
  status : Status := .absent
  cancelled : Bool := false
  direct : Option Nat := none
  waiting : Bool := false
  slot : Bool := false
  txn : Bool := false
deriving DecidableEq, Repr

/-- `channel<T>::write_op` (channel.hpp:109-151). `closedF` is the member
`closed`. -/
structure WOp where
  status : Status := .absent
  cancelled : Bool := false
  direct : Bool := false
  closedF : Bool := false
  waiting : Bool := false
  slot : Bool := false
  txn : Bool := false
deriving DecidableEq, Repr

/-- A channel (channel.hpp:62-69, 153-154) together with all its operations and
the resumptions posted to the executor. -/
structure St where
  /-- `buffer_.capacity()` -/
  cap : Nat
  /-- `buffer_`, oldest first -/
  buf : List Nat := []
  /-- `is_closed_` -/
  closed : Bool := false
  /-- `read_queue_` -/
  rq : List Nat := []
  /-- `write_queue_` -/
  wq : List Nat := []
  /-- handles given to `asio::post` and not run yet -/
  posted : List Tok := []
  R : Nat → ROp := fun _ => {}
  W : Nat → WOp := fun _ => {}
  nextR : Nat := 0
  nextW : Nat := 0
  /-- history of observations -/
  log : List Obs := []
  /-- some `BOOST_ASSERT` failed -/
  asserted : Bool := false
  /-- undefined behaviour -/
  ub : Bool := false

/-- Replace the value of `f` at `i`. -/
def upd {α : Type} (f : Nat → α) (i : Nat) (x : α) : Nat → α := fun j => if j = i then x else f j

/-- `channel(limit)` (impl/channel.hpp:21-25). -/
def St.init (cap : Nat) : St := { cap }

/-- `boost::circular_buffer::push_back`: overwrites the oldest element when
full, does nothing when the capacity is 0. -/
def pushBack (cap : Nat) (buf : List Nat) (x : Nat) : List Nat :=
  if cap = 0 then buf else if buf.length = cap then buf.tail ++ [x] else buf ++ [x]

/-- `read_op::await_ready` (channel.hpp:99). -/
def St.readReady (s : St) : Bool := s.buf ≠ [] || s.closed

/-- `write_op::await_ready` (channel.hpp:143); `full()` is `capacity() == size()`. -/
def St.writeReady (s : St) : Bool := s.buf.length ≠ s.cap || s.closed

/-- End of `read_op::await_resume` (impl/channel.hpp:189-199): wake the first
waiting writer if it could go on now. -/
def St.wakeWriter (s : St) : St :=
  match s.wq with
  | [] => s
  | w :: rest =>
    let s := { s with asserted := s.asserted || decide (s.rq ≠ []) }
    if s.writeReady then
      if (s.W w).waiting then
        { s with wq := rest, W := upd s.W w { s.W w with waiting := false }
                 posted := s.posted ++ [.w w] }
      else { s with ub := true } -- posts an empty handle
    else s

/-- End of `write_op::await_resume` (impl/channel.hpp:310-321): wake the first
waiting reader if it could go on now. -/
def St.wakeReader (s : St) : St :=
  match s.rq with
  | [] => s
  | i :: rest =>
    let s := { s with asserted := s.asserted || decide (s.wq ≠ []) }
    if s.readReady then
      if (s.R i).waiting then
        { s with rq := rest, R := upd s.R i { s.R i with waiting := false }
                 posted := s.posted ++ [.r i] }
      else { s with ub := true }
    else s

/-- The awaiting coroutine of read `i` leaves `await_resume` with `res`. -/
def St.endR (s : St) (i : Nat) (res : RRes) : St :=
  { s with R := upd s.R i { s.R i with status := .done, slot := false, waiting := false }
           log := s.log ++ [.doneR i res] }

/-- The awaiting coroutine of write `i` leaves `await_resume` with `res`. -/
def St.endW (s : St) (i : Nat) (res : WRes) : St :=
  { s with W := upd s.W i { s.W i with status := .done, slot := false, waiting := false }
           log := s.log ++ [.doneW i res] }

/-- `read_op::await_resume` (impl/channel.hpp:164-201). -/
def St.resumeR (s : St) (i : Nat) : St :=
  if s.closed && s.buf = [] && (s.R i).direct.isNone then s.endR i .brokenPipe
  else if (s.R i).cancelled then s.endR i .aborted
  else match s.buf, (s.R i).direct with
    | [], none => { s with ub := true } -- line 181: `*direct` of an empty optional
    | [], some d => (s.endR i (.value d)).wakeWriter
    | b :: bs, none => { s.endR i (.value b) with buf := bs }.wakeWriter
    | b :: bs, some d => { s.endR i (.value b) with buf := pushBack s.cap bs d }.wakeWriter

/-- `write_op::await_resume` (impl/channel.hpp:279-323). -/
def St.resumeW (s : St) (i : Nat) : St :=
  if (s.W i).closedF then s.endW i .brokenPipe
  else if (s.W i).cancelled then s.endW i .aborted
  else if (s.W i).direct then (s.endW i .ok).wakeReader
  else -- line 298: asserts that the buffer is not full
    { s.endW i .ok with
      buf := pushBack s.cap s.buf i
      asserted := s.asserted || decide (s.buf.length = s.cap) }.wakeReader

/-- `read_op::interrupt_await` (channel.hpp:88-96); the coroutine runs right
away if it was waiting. The operation is not unlinked. -/
def St.intR (s : St) (i : Nat) : St :=
  if (s.R i).status = .absent ∨ (s.R i).status = .gone then s
  else if (s.R i).direct.isSome then s
  else
    let s' := { s with R := upd s.R i { s.R i with cancelled := true } }
    if (s.R i).waiting then s'.resumeR i else s'

/-- `write_op::interrupt_await` (channel.hpp:131-139). -/
def St.intW (s : St) (i : Nat) : St :=
  if (s.W i).status = .absent ∨ (s.W i).status = .gone then s
  else if (s.W i).direct then s
  else
    let s' := { s with W := upd s.W i { s.W i with cancelled := true } }
    if (s.W i).waiting then s'.resumeW i else s'

def St.int (s : St) : Tok → St
  | .r i => s.intR i
  | .w i => s.intW i

/-- Reader `i` finds writer `w` waiting: the value moves over
(impl/channel.hpp:103-112 and 121-133). -/
def St.takeFrom (s : St) (i w : Nat) (txn : Bool) : St :=
  { s with
    R := upd s.R i { s.R i with
      status := .susp, waiting := true, slot := false, txn := txn, direct := some w }
    W := upd s.W w { s.W w with direct := true } }

/-- … then writer `w` is unlinked and taken out of its wait, reader `i` is posted
(impl/channel.hpp:135-140). -/
def St.handR (s : St) (i w : Nat) : St :=
  { s with
    wq := s.wq.erase w
    R := upd s.R i { s.R i with waiting := false }
    W := upd s.W w { s.W w with waiting := false }
    posted := s.posted ++ [Tok.r i] }

/-- Writer `i` finds reader `j` waiting (impl/channel.hpp:227-233 and 243-255). -/
def St.giveTo (s : St) (i j : Nat) (txn : Bool) : St :=
  { s with
    W := upd s.W i { s.W i with
      status := .susp, waiting := true, slot := false, txn := txn, direct := true }
    R := upd s.R j { s.R j with direct := some i } }

/-- … then reader `j` is unlinked and taken out of its wait, writer `i` is posted
(impl/channel.hpp:256-262). -/
def St.handW (s : St) (i j : Nat) : St :=
  { s with
    rq := s.rq.erase j
    W := upd s.W i { s.W i with waiting := false }
    R := upd s.R j { s.R j with waiting := false }
    posted := s.posted ++ [Tok.w i] }

/-- No writer waits: the reader is queued (impl/channel.hpp:103-117). -/
def St.queueR (s : St) (i : Nat) (conn txn : Bool) : St :=
  { s with
    R := upd s.R i { s.R i with status := .susp, waiting := true, slot := conn, txn := txn }
    rq := s.rq ++ [i] }

/-- No reader waits: the writer is queued (impl/channel.hpp:227-239). -/
def St.queueW (s : St) (i : Nat) (conn txn : Bool) : St :=
  { s with
    W := upd s.W i { s.W i with status := .susp, waiting := true, slot := conn, txn := txn }
    wq := s.wq ++ [i] }

/-- `co_await` of a read operation: `await_ready`, `await_suspend`
(impl/channel.hpp:98-142) and, if not suspended, `await_resume`.
`conn`: the awaiting coroutine has a connected cancellation slot. `txn`: it is
the branch of a race, so `begin_transaction` is set. `hits`: the operations on
this channel that the race of the *other* side interrupts if it has to begin a
transaction (detail/race.hpp:196-203). -/
def St.awaitR (s : St) (i : Nat) (conn txn : Bool) (hits : List Tok) : St :=
  if (s.R i).status ≠ .fresh then s
  else
    let s := { s with log := s.log ++ [Obs.startR i] }
    if s.readReady then s.resumeR i
    else if (s.R i).cancelled then s.resumeR i
    else match s.wq with
      | [] => s.queueR i conn txn
      | w :: _ =>
        if (s.W w).waiting then
          let s := s.takeFrom i w txn
          let s := if (s.W w).txn then hits.foldl St.int s else s
          (s.handR i w).resumeW w
        else { s with ub := true } -- begin_transaction(nullptr) or resuming a null handle

/-- `co_await` of a write operation: `await_ready`, `await_suspend`
(impl/channel.hpp:221-264) and, if not suspended, `await_resume`. -/
def St.awaitW (s : St) (i : Nat) (conn txn : Bool) (hits : List Tok) : St :=
  if (s.W i).status ≠ .fresh then s
  else
    let s := { s with log := s.log ++ [Obs.startW i] }
    if s.writeReady then s.resumeW i
    else if (s.W i).cancelled then s.resumeW i
    else match s.rq with
      | [] => s.queueW i conn txn
      | j :: _ =>
        if (s.R j).waiting then
          let s := s.giveTo i j txn
          let s := if (s.R j).txn then hits.foldl St.int s else s
          (s.handW i j).resumeR j
        else { s with ub := true }

/-- `read_op::cancel_impl` (impl/channel.hpp:80-94). -/
def St.cancelR (s : St) (i : Nat) : St :=
  if (s.R i).slot then
    { s with
      R := upd s.R i { s.R i with cancelled := true, slot := false, waiting := false }
      rq := s.rq.erase i
      posted := if (s.R i).waiting then s.posted ++ [.r i] else s.posted }
  else s

/-- `write_op::cancel_impl` (impl/channel.hpp:204-217). -/
def St.cancelW (s : St) (i : Nat) : St :=
  if (s.W i).slot then
    { s with
      W := upd s.W i { s.W i with cancelled := true, slot := false, waiting := false }
      wq := s.wq.erase i
      posted := if (s.W i).waiting then s.posted ++ [.w i] else s.posted }
  else s

/-- `channel::close` (impl/channel.hpp:53-76), the two loops in closed form. -/
def St.close (s : St) : St :=
  { s with
    closed := true
    R := fun i => if i ∈ s.rq then
      { s.R i with cancelled := true, slot := false, waiting := false } else s.R i
    W := fun i => if i ∈ s.wq then
      { s.W i with cancelled := true, closedF := true, slot := false, waiting := false } else s.W i
    posted := s.posted ++ (s.rq.filter fun i => (s.R i).waiting).map .r
                       ++ (s.wq.filter fun i => (s.W i).waiting).map .w
    rq := []
    wq := [] }

/-- The executor runs the `k`-th posted resumption. -/
def St.run (s : St) (k : Nat) : St :=
  match s.posted[k]? with
  | none => s
  | some (.r i) => { s with posted := s.posted.eraseIdx k }.resumeR i
  | some (.w i) => { s with posted := s.posted.eraseIdx k }.resumeW i

/-- Destruction of a read operation; the hook unlinks itself (channel.hpp:71). -/
def St.dropR (s : St) (i : Nat) : St :=
  if (s.R i).status = .fresh ∨ (s.R i).status = .done then
    { s with R := upd s.R i { s.R i with status := .gone }, rq := s.rq.erase i }
  else s

/-- Destruction of a write operation (channel.hpp:109). -/
def St.dropW (s : St) (i : Nat) : St :=
  if (s.W i).status = .fresh ∨ (s.W i).status = .done then
    { s with W := upd s.W i { s.W i with status := .gone }, wq := s.wq.erase i }
  else s

/-- Everything the environment can do. -/
inductive Ev where
  /-- `c.read()` (channel.hpp:156): makes operation number `nextR` -/
  | mkR
  /-- `c.write(v)` (channel.hpp:159-183): makes operation number `nextW`;
  `closed` is initialised then (line 118) -/
  | mkW
  | awaitR (i : Nat) (conn txn : Bool) (hits : List Tok)
  | awaitW (i : Nat) (conn txn : Bool) (hits : List Tok)
  | run (k : Nat)
  | cancelR (i : Nat) | cancelW (i : Nat)
  | intR (i : Nat) | intW (i : Nat)
  | dropR (i : Nat) | dropW (i : Nat)
  | close
deriving DecidableEq, Repr

def St.step (s : St) (e : Ev) : St :=
  if s.ub then s
  else match e with
    | .mkR => { s with R := upd s.R s.nextR { status := .fresh }, nextR := s.nextR + 1 }
    | .mkW => { s with W := upd s.W s.nextW { status := .fresh, closedF := s.closed }
                       nextW := s.nextW + 1 }
    | .awaitR i conn txn hits => s.awaitR i conn txn hits
    | .awaitW i conn txn hits => s.awaitW i conn txn hits
    | .run k => s.run k
    | .cancelR i => s.cancelR i
    | .cancelW i => s.cancelW i
    | .intR i => s.intR i
    | .intW i => s.intW i
    | .dropR i => s.dropR i
    | .dropW i => s.dropW i
    | .close => s.close

def St.steps (s : St) (es : List Ev) : St := es.foldl St.step s

/-- The state after the events `es` on a new channel with limit `cap`. -/
def exec (cap : Nat) (es : List Ev) : St := (St.init cap).steps es

end Cobalt.Chan
