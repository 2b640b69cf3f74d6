/-!
# Model of `co_main`

Sources: `src/main.cpp`, `include/boost/cobalt/detail/main.hpp`.

The event loop has a queue of handlers; a step (`pump`) runs the first. Signals and the end
of the operation `co_main` waits for come at any time. A signal for which no wait is pending
is kept for the next wait (`asio::signal_set`). A wait whose signal has come is a handler in
the queue and no longer cancellable.

Simplifications: `co_main` is always suspended in one operation. What it does with a
cancellation is left open: the operation may end at any time. It may also end while the
cancellation is being emitted (`now`), if an awaitable resumes it directly.
-/
namespace Cobalt.Main

inductive Sig where
  | int
  | term
deriving DecidableEq, Repr

inductive Cancel where
  | total
  | terminal
deriving DecidableEq, Repr

/-- Handlers in the queue of the context. -/
inductive H where
  /-- the posted lambda that starts `co_main` (main.cpp:54-59) -/
  | start
  /-- `work` with a signal (main.cpp:41-50) -/
  | sig (s : Sig)
  /-- `work` with `operation_aborted` -/
  | aborted
  /-- the operation `co_main` waits for has ended; `co_main` then returns a value or goes on -/
  | op (ret : Option Int)
deriving DecidableEq, Repr

structure St where
  queue : List H := [.start]
  /-- a wait of the signal set is pending -/
  waiting : Bool := true
  /-- signals that came without a wait -/
  kept : List Sig := []
  /-- the coroutine frame, with the cancellation signal in it, exists -/
  frame : Bool := true
  started : Bool := false
  /-- `co_main` waits for an operation that has not ended -/
  busy : Bool := false
  /-- `res` in `run_main` -/
  res : Int := -1
  /-- cancellations emitted -/
  emitted : List Cancel := []
  /-- signals handled while the frame existed -/
  handled : List Sig := []
  ub : Bool := false
  /-- what `co_main` returned -/
  returned : Option Int := none
  /-- signals that were in the queue when it did -/
  late : List Sig := []
deriving DecidableEq, Repr

def H.sig? : H → Option Sig
  | .sig s => some s
  | _ => none

/-- `ss.async_wait(work)` -/
def St.arm (s : St) : St :=
  match s.kept with
  | [] => { s with waiting := true }
  | x :: l => { s with kept := l, queue := s.queue ++ [.sig x] }

/-- `co_main` returns: `return_value`, `final_suspend` cancels the signal set, the frame is
destroyed (main.cpp:18-24, detail/main.hpp:90-91). Only a pending wait can be cancelled. -/
def St.finish (s : St) (v : Int) : St :=
  { s with
    res := v, frame := false, busy := false, returned := some v,
    late := s.queue.filterMap H.sig?,
    waiting := false,
    queue := if s.waiting then s.queue ++ [.aborted] else s.queue }

/-- Cancellation types (main.cpp:44-47). -/
def Sig.cancel : Sig → Cancel
  | .int => .total
  | .term => .terminal

/-- `work::operator()` with a signal (main.cpp:41-50): emit, then wait again. The emission
may make `co_main` return (`now`). -/
def St.work (s : St) (x : Sig) (now : Option Int) : St :=
  if s.frame then
    let s := { s with emitted := s.emitted ++ [x.cancel], handled := s.handled ++ [x] }
    let s := match now with
      | some v => if s.busy then s.finish v else s
      | none => s
    s.arm
  else { s with ub := true }

/-- Run the first handler. -/
def St.pump (s : St) (now : Option Int) : St :=
  match s.queue with
  | [] => s
  | h :: q =>
    let s := { s with queue := q }
    match h with
    | .start => { s with started := true, busy := true }
    | .sig x => s.work x now
    | .aborted => s
    | .op (some v) => { s with busy := true }.finish v
    | .op none => { s with busy := true }

inductive Ev where
  | raise (x : Sig)
  | pump (now : Option Int)
  /-- the operation ends, and `co_main` will return or wait for another one -/
  | opEnds (ret : Option Int)
deriving DecidableEq, Repr

def St.step (s : St) (e : Ev) : St :=
  if s.ub then s else match e with
  | .raise x =>
    if s.waiting then { s with waiting := false, queue := s.queue ++ [.sig x] }
    else { s with kept := s.kept ++ [x] }
  | .pump now => s.pump now
  | .opEnds r => if s.busy then { s with busy := false, queue := s.queue ++ [.op r] } else s

def St.run (es : List Ev) : St := es.foldl St.step {}

/-- `ctx.run()` has nothing left to wait for: no handler, no wait, and the work guard went
with the frame. -/
def St.Ended (s : St) : Prop := s.queue = [] ∧ s.waiting = false ∧ s.frame = false

instance (s : St) : Decidable s.Ended := inferInstanceAs (Decidable (_ ∧ _ ∧ _))

end Cobalt.Main
