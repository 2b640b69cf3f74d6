/-!
# Model of the coroutine of a `thread`

Sources: `include/boost/cobalt/detail/thread.hpp`, `src/thread.cpp`,
`include/boost/cobalt/thread.hpp`.

Two threads take turns: the creator `C`, which calls the function, gets the object and may
destroy it, and the new thread `T`. The mutex `mtx` is a member of the promise, so it lives
in the coroutine frame.

Simplifications: the body suspends at most once, waiting for an operation of its own
`io_context`; a coroutine it starts is suspended on one, too, when the body ends. If the body
ends by an exception somebody is waiting for it (otherwise the process terminates, see
`Thr/Model.lean`) and holds the state as the object does. The creator either keeps the object until the thread has
ended, or destroys it at any time.
-/
namespace Cobalt.Thr.Frame

inductive Who where
  | C
  | T
deriving DecidableEq, Repr

structure Cfg where
  /-- the body suspends before it ends -/
  suspends : Bool
  /-- the body ends by an exception -/
  throws : Bool
  /-- the creator destroys the object without waiting for the thread -/
  drops : Bool
  /-- the body starts another coroutine that goes on by itself; its frame is allocated from
  the pool of the thread (thread.cpp:34-37) -/
  detaches : Bool
deriving DecidableEq, Repr

/-- The creator: `mtx` is locked by the constructor of the promise (thread.cpp:21-26),
`get_return_object` starts the thread (thread.cpp:76-89), `initial_suspend` unlocks
(detail/thread.hpp:64-73), `~thread` (thread.hpp:106-117) stops the context and joins. -/
inductive CPc where
  | getObject
  | initialSuspend
  | hasObject
  | stopped
  | gone
deriving DecidableEq, Repr

/-- The thread (`run_thread`, thread.cpp:28-73): `prepare` writes to the promise and posts
the handler (34-51), `runs` is `ctx.run()` before the handler is taken, `locking` and
`resuming` and `unlocking` are the handler (46-51), `looping` is `ctx.run()` with the body
suspended, `over` is after `run()`. -/
inductive TPc where
  | absent
  | prepare
  | runs
  | locking
  | resuming
  | unlocking
  | looping
  | over
  | fin
deriving DecidableEq, Repr

structure St where
  /-- who holds `mtx` -/
  mtx : Option Who := some .C
  /-- the frame exists -/
  frame : Bool := true
  /-- the coroutine is at its initial suspension point -/
  suspended : Bool := false
  /-- `resume` was called -/
  resumed : Nat := 0
  /-- the suspended body is owned by an operation of the context -/
  pending : Bool := false
  /-- the handler with the frame is in the context -/
  queued : Bool := false
  /-- the context was stopped -/
  stop : Bool := false
  /-- the other coroutine is suspended -/
  child : Bool := false
  /-- the pool resource of the thread exists -/
  pool : Bool := true
  /-- how often the frame was destroyed -/
  destroyed : Nat := 0
  cpc : CPc := .getObject
  tpc : TPc := .absent
  /-- the frame was used after it was destroyed -/
  ub : Bool := false
deriving DecidableEq, Repr

/-- Destroy the frame. -/
def St.kill (s : St) : St :=
  { s with frame := false, destroyed := s.destroyed + 1, ub := s.ub || !s.frame }

/-- Use the frame, for instance the mutex in it. -/
def St.use (s : St) : St := { s with ub := s.ub || !s.frame }

/-- The last reference to the state has gone: the context is destroyed, and with it the
operations in it and the coroutines they own; unless a handler in it owns the state
(thread.cpp:47: the lambda holds `st`, and `st` holds the context). The frame of the other
coroutine is given back to the pool. -/
def St.ctxGone (s : St) : St :=
  if s.queued then s else
    let s := if s.pending then { s.kill with pending := false } else s
    if s.child then { s with child := false, ub := s.ub || !s.pool } else s

/-- A step of the creator. `~thread` stops the context and drops its reference before it
joins. -/
def stepC (c : Cfg) (s : St) : St :=
  match s.cpc with
  | .getObject => { s with cpc := .initialSuspend, tpc := .prepare }
  | .initialSuspend => { s.use with mtx := none, suspended := true, cpc := .hasObject }
  | .hasObject => if c.drops ∨ s.tpc = .fin then
      (let s := { s with stop := true, cpc := .stopped }
       if s.tpc = .fin then s.ctxGone else s) else s
  | .stopped => if s.tpc = .fin then { s with cpc := .gone } else s
  | .gone => s

/-- A step of the new thread. When the body has returned `run` goes on until the other
coroutine has ended. The thread drops its reference to the state (thread.cpp:39, 72) before
the pool goes. -/
def stepT (c : Cfg) (s : St) : St :=
  match s.tpc with
  | .absent => s
  | .prepare => { s.use with queued := true, tpc := .runs }
  | .runs => if s.stop then { s with tpc := .over } else { s with queued := false, tpc := .locking }
  | .locking => if s.mtx = none then { s.use with mtx := some .T, tpc := .resuming } else s
  | .resuming =>
    let s := { s.use with resumed := s.resumed + 1, child := c.detaches, tpc := .unlocking }
    if c.suspends then { s with pending := true } else if c.throws then s else s.kill
  | .unlocking => { s.use with
      mtx := none, tpc := if s.pending then .looping else .over,
      child := s.child && (s.pending || c.throws) }
  | .looping => if s.stop then { s with tpc := .over }
    else
      let s := { s.use with pending := false, tpc := .over }
      if c.throws then s else { s.kill with child := false }
  | .over =>
    let s := if s.cpc = .stopped then s.ctxGone else s
    { s with pool := false, tpc := .fin }
  | .fin => s

def St.step (c : Cfg) (s : St) : Who → St
  | .C => stepC c s
  | .T => stepT c s

def St.run (c : Cfg) (sched : List Who) : St := sched.foldl (St.step c) {}

end Cobalt.Thr.Frame
