import Verif.Prom.Model
/-!
# Model of `task` and `spawn`

Sources: `include/boost/cobalt/task.hpp`, `include/boost/cobalt/detail/task.hpp`,
`include/boost/cobalt/detail/spawn.hpp`, `include/boost/cobalt/detail/wrapper.hpp`.

A `task` object is a receiver at an address; it points to the frame of its coroutine
(`promise`), which points back (`receiver`). Both can dangle; using one that does is
undefined (`ub`). Any number of coroutines, task objects, awaits and spawns.

Simplifications:
* Values and exceptions are numbers, as in the model of promises. Frames are never
  used again, addresses of task objects are.
* Between the start of a body and its end nothing is said about what it does. Starting
  a body that was started before is undefined: it either runs or is suspended in some
  other operation that is going to resume it.
* A moved-from `std::exception_ptr` is null.
* `task` has no usable move assignment: `task_receiver` declares a move constructor only.
* `task_receiver::interrupt_await` (detail/task.hpp:244-248) cannot be reached from
  outside and is left out.
* The executor, allocator and cancellation slot of an awaiter are left out; so is the
  cancellation forwarded by an await.
* Of `spawn` everything but the type of the executors is modelled. Its two functions
  (for `void` and other types) are one here.
-/
namespace Cobalt.Task

open Prom (Err Out Got upd upd_apply)

/-- `task_receiver` (detail/task.hpp:44-45, 92, 111-112, 239). `owner`: the receiver was
made by `spawn` (detail/spawn.hpp:49) for this handler. -/
structure Rec where
  result : Option (Option Nat) := none
  taken : Bool := false
  exc : Option Err := none
  done : Bool := false
  awaited : Option Nat := none
  prom : Option Nat := none
  owner : Option Nat := none
deriving DecidableEq, Repr

/-- The frame of a coroutine: `task_promise_result::receiver` and `started`. `stuck`: an
exception escaped, the frame is never destroyed. -/
structure Frame where
  receiver : Option Nat
  started : Bool := false
  stuck : Bool := false
deriving DecidableEq, Repr

/-- An await (`task_receiver::awaitable`) or a spawn. `posted`: the completion handler of
a spawn is in the queue of the executor; `ready` what it was given already when the task
was done (detail/spawn.hpp:38-41). `got` is what the await or the handler got. -/
structure Aw where
  self : Nat
  spawned : Bool := false
  posted : Bool := false
  ready : Option Got := none
  got : Option Got := none
deriving DecidableEq, Repr

structure St where
  recv : Nat → Option Rec := fun _ => none
  frame : Nat → Option Frame := fun _ => none
  born : Nat → Bool := fun _ => false
  aw : Nat → Option Aw := fun _ => none
  /-- coroutines dispatched by `spawn`, not started yet -/
  queue : Nat → Bool := fun _ => false
  /-- how often each body was started -/
  starts : Nat → Nat := fun _ => 0
  /-- cancellations sent to each coroutine by way of the slot of a spawn -/
  signals : Nat → Nat := fun _ => 0
  /-- awaits and spawns that have ended, newest first -/
  log : List (Nat × Got) := []
  /-- awaiting coroutines and handlers that were destroyed -/
  killed : List Nat := []
  ub : Bool := false

namespace St

/-- detail/task.hpp:47-52 and 93-103. `none`: there is no result (assertion). -/
def getResult (R : Rec) : Option (Rec × Got) :=
  match R.exc with
  | some e => some (if R.done then { R with taken := true } else { R with exc := none }, .err e)
  | none =>
    match R.result with
    | none => none
    | some none => some ({ R with taken := true }, .moved)
    | some (some v) => some ({ R with taken := true, result := some none }, .val v)

/-- The awaiter `a` is resumed: `await_resume` (detail/task.hpp:197-203), or the
coroutine of `spawn`, which posts the handler (detail/wrapper.hpp:88-99). -/
def resumeAw (s : St) (a : Nat) : St :=
  match s.aw a with
  | none => { s with ub := true }
  | some w =>
    if w.spawned then { s with aw := upd s.aw a (some { w with posted := true }) } else
    match s.recv w.self with
    | none => { s with ub := true }
    | some R =>
      match getResult R with
      | none => { s with ub := true }
      | some (R', g) => { s with
          recv := upd s.recv w.self (some R')
          aw := upd s.aw a (some { w with got := some g })
          log := (a, g) :: s.log }

/-- The body of `c` is entered (detail/task.hpp:330-341). -/
def start (s : St) (c : Nat) : St :=
  match s.frame c with
  | none => { s with ub := true }
  | some f =>
    if f.started then { s with ub := true }
    else { s with frame := upd s.frame c (some { f with started := true }), starts := upd s.starts c (s.starts c + 1) }

/-- `co_await` of task `r` by `a` (detail/task.hpp:173-195). -/
def await (s : St) (a r : Nat) : St :=
  match s.recv r with
  | none => { s with ub := true }
  | some R =>
    if R.done then resumeAw { s with aw := upd s.aw a (some { self := r }) } a
    else
      let s := { s with
        aw := upd s.aw a (some { self := r }), recv := upd s.recv r (some { R with awaited := some a })
        -- `awaited_from.reset` destroys the one before
        killed := match R.awaited with | some b => b :: s.killed | none => s.killed }
      match R.prom with
      | none => { s with ub := true }
      | some c => start s c

/-- `interrupt_await` of awaitable `a` (detail/task.hpp:229-236). -/
def interrupt (s : St) (a : Nat) : St :=
  match s.aw a with
  | none => { s with ub := true }
  | some w =>
    match s.recv w.self with
    | none => { s with ub := true }
    | some R =>
      match R.awaited with
      | none => { s with recv := upd s.recv w.self (some { R with exc := some .detached }) }
      | some b => resumeAw { s with recv := upd s.recv w.self (some { R with exc := some .detached, awaited := none }) } b

/-- The coroutine `c` ends: lines 51-60, 105-109, 259-268, 380-386, the final awaitable
(341-373) and the destructor (388-397). -/
def finish (s : St) (c : Nat) (o : Out) : St :=
  match s.frame c with
  | none => { s with ub := true }
  | some f =>
    match f.receiver with
    | none =>
      match o with
      | .val _ => { s with frame := upd s.frame c none }
      -- the exception leaves `resume`
      | .exc _ => { s with frame := upd s.frame c (some { f with stuck := true }) }
    | some r =>
      match s.recv r with
      | none => { s with ub := true }
      | some R =>
        let R := match o with
          | .val v => { R with result := some (some v), done := true }
          | .exc e => { R with exc := some (.user e), done := true }
        let s := { s with frame := upd s.frame c none, recv := upd s.recv r (some { R with awaited := none }) }
        match R.awaited with
        | none => s
        | some a => resumeAw s a

/-- The frame of `c` is destroyed while it is suspended, or in the queue of the executor
(the destructor, detail/task.hpp:395-404). The receiver of a spawn is destroyed with its
handler, which owns it. -/
def kill (s : St) (c : Nat) : St :=
  let s := { s with queue := upd s.queue c false }
  match s.frame c with
  | none => { s with ub := true }
  | some f =>
    match f.receiver with
    | none => { s with frame := upd s.frame c none }
    | some r =>
      match s.recv r with
      | none => { s with ub := true }
      | some R => { s with
          frame := upd s.frame c none
          recv := upd s.recv r (if R.owner = none then some { R with
              exc := if R.done = false ∧ R.exc = none then some .unexpected else R.exc, done := true, awaited := none }
            else none)
          killed := match R.awaited with | some a => a :: s.killed | none => s.killed }

/-- The move constructor, from `r` to `r'` (detail/task.hpp:127-139). -/
def moveConstruct (s : St) (r r' : Nat) : St :=
  match s.recv r with
  | none => { s with ub := true }
  | some R =>
    let lhs := { R with result := R.result.map fun _ => none, exc := none, done := true, awaited := none }
    if R.done = false ∧ R.exc = none then
      match R.prom with
      | none => { s with ub := true }
      | some c =>
        match s.frame c with
        | none => { s with ub := true }
        | some f => { s with
            frame := upd s.frame c (some { f with receiver := some r' })
            recv := upd (upd s.recv r (some { lhs with exc := some .movedFrom })) r' (some R) }
    else { s with recv := upd (upd s.recv r (some lhs)) r' (some R) }

/-- `~task_receiver` (detail/task.hpp:141-149) and that of `awaited_from`. -/
def destroyRec (s : St) (r : Nat) : St :=
  match s.recv r with
  | none => { s with ub := true }
  | some R =>
    let killed := match R.awaited with | some a => a :: s.killed | none => s.killed
    if R.done then { s with recv := upd s.recv r none, killed := killed } else
    match R.prom with
    | none => { s with recv := upd s.recv r none, killed := killed }
    | some c =>
      match s.frame c with
      | none => { s with ub := true }
      | some f => { s with
          recv := upd s.recv r none, killed := killed
          frame := if f.receiver = some r then
              upd s.frame c (if f.started then some { f with receiver := none } else none)
            else s.frame }

/-- What the handler of a spawn is given if the task is done (detail/spawn.hpp:41). -/
def doneGot (R : Rec) : Option Got :=
  match R.exc with
  | some e => some (.err e)
  | none => (getResult R).map Prod.snd

/-- `spawn` of task `r` with handler `a` (detail/spawn.hpp:35-98); `r'` is the receiver
it makes. The move into the parameter and the one into `recs` are one here. -/
def spawn (s : St) (a r r' : Nat) : St :=
  match s.recv r with
  | none => { s with ub := true }
  | some R =>
    if R.done then
      match doneGot R with
      | none => { s with ub := true }
      | some g => { s with
          -- what is left of `r` after the move into the parameter
          recv := upd s.recv r (some { R with result := R.result.map fun _ => none, exc := none })
          aw := upd s.aw a (some { self := r', spawned := true, posted := true, ready := some g }) }
    else
      let s := moveConstruct s r r'
      match s.recv r' with
      | none => { s with ub := true }
      | some R => { s with
          recv := upd s.recv r' (some { R with awaited := some a, owner := some a })
          killed := match R.awaited with | some b => b :: s.killed | none => s.killed
          aw := upd s.aw a (some { self := r', spawned := true })
          queue := match R.prom with | some c => upd s.queue c true | none => s.queue }

/-- What the completion handler of a spawn is given (detail/spawn.hpp:83-86). No exception
and no result gives a default value; it is marked `moved`. -/
def handed (R : Rec) : Got :=
  match R.exc, R.result with
  | some e, _ => .err e
  | none, some (some v) => .val v
  | none, _ => .moved

/-- The completion handler of spawn `a` runs (detail/spawn.hpp:79-89). -/
def deliver (s : St) (a : Nat) : St :=
  match s.aw a with
  | none => { s with ub := true }
  | some w =>
    match w.ready with
    | some g => { s with aw := upd s.aw a (some { w with got := some g }), log := (a, g) :: s.log }
    | none =>
      match s.recv w.self with
      | none => { s with ub := true }
      | some R =>
        { s with
          recv := upd s.recv w.self none
          aw := upd s.aw a (some { w with got := some (handed R) })
          log := (a, handed R) :: s.log }

/-- A cancellation of spawn `a` (detail/spawn.hpp:53-57, detail/task.hpp:119-123). -/
def cancel (s : St) (a : Nat) : St :=
  match s.aw a with
  | none => { s with ub := true }
  | some w =>
    match s.recv w.self with
    | none => { s with ub := true }
    | some R =>
      if R.done then s else
      match R.prom with
      | none => { s with ub := true }
      | some c =>
        match s.frame c with
        | none => { s with ub := true }
        | some _ => { s with signals := upd s.signals c (s.signals c + 1) }

end St

inductive Ev where
  /-- a coroutine `c` is created; its task is at `r` -/
  | create (c r : Nat)
  /-- `task(noop{v})` -/
  | noop (r v : Nat)
  | await (a r : Nat)
  | interrupt (a : Nat)
  | finish (c : Nat) (o : Out)
  /-- the frame of `c` is destroyed by the executor or by the operation it waits for -/
  | kill (c : Nat)
  /-- `task r'(std::move(r))` -/
  | moveC (r r' : Nat)
  | drop (r : Nat)
  /-- `spawn(ctx, std::move(r), a)` -/
  | spawn (a r r' : Nat)
  /-- the executor starts a spawned coroutine -/
  | begin (c : Nat)
  /-- the executor runs the handler of a spawn -/
  | deliver (a : Nat)
  | cancel (a : Nat)
deriving DecidableEq, Repr

/-- Task object `r` exists and is not one `spawn` made. -/
def St.user (s : St) (r : Nat) : Bool :=
  match s.recv r with
  | some R => R.owner == none
  | none => false

/-- Which events are possible. An awaitable is interrupted only while the task it refers
to exists. -/
def St.can (s : St) : Ev → Bool
  | .create c r => !s.born c && (s.recv r).isNone
  | .noop r _ => (s.recv r).isNone
  | .await a r => (s.aw a).isNone && s.user r
  | .interrupt a => match s.aw a with
    | some w => !w.spawned && s.user w.self && !s.killed.contains a
    | none => false
  | .finish c _ => match s.frame c with
    | some f => f.started && !f.stuck
    | none => false
  | .kill c => match s.frame c with
    | some f => (f.started || s.queue c) && !f.stuck
    | none => false
  | .moveC r r' => s.user r && (s.recv r').isNone
  | .drop r => s.user r
  | .spawn a r r' => (s.aw a).isNone && s.user r && (s.recv r').isNone
  | .begin c => s.queue c
  | .deliver a => match s.aw a with
    | some w => w.posted && w.got == none
    | none => false
  | .cancel a => match s.aw a with
    | some w => w.spawned && w.ready == none && w.got == none && !s.killed.contains a
    | none => false

namespace St

/-- One event. Nothing changes after undefined behaviour. -/
def step (s : St) (e : Ev) : St :=
  if s.ub || !s.can e then s else
  match e with
  | .create c r => { s with
      born := upd s.born c true, frame := upd s.frame c (some { receiver := some r })
      recv := upd s.recv r (some { prom := some c }) }
  | .noop r v => { s with recv := upd s.recv r (some { result := some (some v), done := true }) }
  | .await a r => await s a r
  | .interrupt a => interrupt s a
  | .finish c o => finish s c o
  | .kill c => kill s c
  | .moveC r r' => moveConstruct s r r'
  | .drop r => destroyRec s r
  | .spawn a r r' => spawn s a r r'
  | .begin c => start { s with queue := upd s.queue c false } c
  | .deliver a => deliver s a
  | .cancel a => cancel s a

def steps (s : St) (es : List Ev) : St := es.foldl step s

def run (es : List Ev) : St := steps {} es

end St

end Cobalt.Task
