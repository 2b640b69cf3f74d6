/-!
# Model of cancelling a `thread`, and of who owns what it uses

Sources: `include/boost/cobalt/detail/thread.hpp`, `src/thread.cpp`,
`include/boost/cobalt/thread.hpp`.

The state of a thread (detail/thread.hpp:45-52: context, signal, mutex, waitor) is shared.
It is owned by the object (thread.hpp:75), by the awaitable (detail/thread.hpp:210), by the
handler in the cancellation slot of the coroutine that awaits (149), by the thread itself
(thread.cpp:40), and by every handler in the queue of its context that captures it: the one
that starts the body (thread.cpp:47) and those that emit a cancellation (thread.hpp:87,
detail/thread.hpp:153). The queue is a part of the state, so a handler left in it keeps
itself alive.

Simplifications: the steps of `run_thread` after `run()` are one event (their order is the
matter of `Thr/Model.lean`), the body is one operation of its own context long, its
completion is not shown in the queue, one coroutine awaits the thread at most once and its
slot is connected, and the joins (which only wait) are left out.
-/
namespace Cobalt.Thr.Cancel

/-- A handler in the queue of the context of the thread. -/
inductive Hd where
  /-- resumes the body for the first time (thread.cpp:45-51) -/
  | start
  /-- emits the `n`th posted cancellation (thread.hpp:86-91, detail/thread.hpp:152-157) -/
  | emit (n : Nat)
deriving DecidableEq, Repr

inductive Body where
  | fresh
  | waiting
  | over
  | threw
deriving DecidableEq, Repr

/-- The coroutine that awaits the thread. -/
inductive Aw where
  | idle
  /-- registered as waitor (detail/thread.hpp:162) -/
  | waiting
  /-- posted to its own executor (thread.cpp:70-71) -/
  | posted
  | done
deriving DecidableEq, Repr

structure St where
  /-- the thread has posted the handler that starts the body -/
  prep : Bool := false
  queue : List Hd := []
  /-- cancellations emitted on the thread, oldest first -/
  out : List Nat := []
  /-- number of cancellations posted -/
  posted : Nat := 0
  /-- calls of `thread::cancel` without a state -/
  ignored : Nat := 0
  body : Body := .fresh
  /-- `ctx.stop()` was called -/
  stopped : Bool := false
  /-- `ctx.run()` returned -/
  ran : Bool := false
  /-- `run_thread` is through and gave up its share of the state -/
  fin : Bool := false
  /-- the object holds the state -/
  obj : Bool := true
  aw : Aw := .idle
  /-- the awaitable holds the state -/
  awHolds : Bool := false
  /-- the handler in the slot of the coroutine that awaits -/
  slot : Bool := false
  /-- the exception of the body left the thread function (thread.cpp:68-69) -/
  terminated : Bool := false
deriving DecidableEq, Repr

inductive Ev where
  /-- `t.cancel()` -/
  | cancelObj
  /-- the coroutine that awaits is cancelled -/
  | cancelAw
  /-- `co_await t` or `co_await std::move(t)` -/
  | await
  /-- `~thread` -/
  | drop
  /-- `t.detach()` -/
  | detach
  /-- `run_thread` up to `run()` -/
  | prepare
  /-- `run()` takes the next handler -/
  | take
  /-- the body ends -/
  | endBody (throws : Bool)
  /-- `run()` returns -/
  | leave
  /-- `run_thread` after `run()` -/
  | finish
  /-- the coroutine that awaits goes on -/
  | resume
deriving DecidableEq, Repr

/-- `asio::post(st->ctx, [st, type]{ st->signal.emit(type); })`. -/
def post (s : St) : St :=
  { s with queue := s.queue ++ [.emit s.posted], posted := s.posted + 1 }

/-- `run()` may take handlers. -/
def running (s : St) : Bool :=
  s.prep && !s.ran && !s.stopped && s.body != .threw

def step (s : St) : Ev → St
  -- thread.hpp:83-92: nothing happens without a state
  | .cancelObj =>
    if s.obj then post s else { s with ignored := s.ignored + 1 }
  -- detail/thread.hpp:148-158
  | .cancelAw => if s.slot then post s else s
  -- thread.hpp:96-104 moves the state into the awaitable; detail/thread.hpp:128-164
  | .await =>
    if s.obj && s.aw == .idle then
      if s.fin then { s with obj := false, aw := .done }
      else { s with obj := false, aw := .waiting, awHolds := true, slot := true }
    else s
  -- thread.hpp:106-117
  | .drop => if s.obj then { s with stopped := true, obj := false } else s
  -- thread.cpp:96-100
  | .detach => { s with obj := false }
  -- thread.cpp:39-51
  | .prepare =>
    if s.prep then s else { s with prep := true, queue := s.queue ++ [.start] }
  | .take =>
    if running s then
      match s.queue with
      | [] => s
      | .start :: q => { s with queue := q, body := .waiting }
      | .emit n :: q => { s with queue := q, out := s.out ++ [n] }
    else s
  | .endBody throws =>
    if running s && s.body == .waiting then
      { s with body := if throws then .threw else .over }
    else s
  -- thread.cpp:55-63: stopped, left by an exception, or out of work; `wexec_` of the promise
  -- (detail/thread.hpp:81, 120) is work until the body is over
  | .leave =>
    if s.prep && !s.ran && (s.stopped || s.body == .threw ||
        (s.body == .over && s.queue.isEmpty)) then
      { s with ran := true }
    else s
  -- thread.cpp:65-71
  | .finish =>
    if s.ran && !s.fin then
      if s.aw == .waiting then { s with fin := true, aw := .posted }
      else { s with fin := true, terminated := s.body == .threw }
    else s
  -- detail/thread.hpp:166-176: the slot is cleared, and the awaitable destroyed
  | .resume =>
    if s.aw == .posted then { s with aw := .done, awHolds := false, slot := false } else s

def run (evs : List Ev) : St := evs.foldl step {}

/-- The last owner of the state is gone. -/
def freed (s : St) : Bool :=
  !s.obj && !s.awHolds && !s.slot && s.fin && s.queue.isEmpty

end Cobalt.Thr.Cancel
