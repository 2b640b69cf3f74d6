/-!
# Model of awaiting a `thread`

Sources: `include/boost/cobalt/detail/thread.hpp`, `include/boost/cobalt/thread.hpp`,
`src/thread.cpp`.

Two threads take turns: `A`, which runs `co_await` of the thread object, and `F`, the
thread itself, from the end of its coroutine on. Each step is one access to the mutex, to
`done`, or to something guarded by the mutex. A schedule is any list of thread names;
a step of a thread that is blocked does nothing.

Simplifications: the access to `done` (an atomic) is sequentially consistent, as in the
code. The handler posted to the awaiter's executor is run there at some later step of `A`.
The awaiter is not destroyed or cancelled while it waits. The body is one step.
-/
namespace Cobalt.Thr

inductive Who where
  | A
  | F
deriving DecidableEq, Repr

/-- How the result is asked for. -/
inductive Tag where
  | plain
  | result
  | tuple
deriving DecidableEq, Repr

/-- What `thread_` of the awaitable is (thread.hpp:95-104): disengaged for `co_await t`, the
thread for `co_await std::move(t)`, a thread that was joined already for the latter after
`t.join()`. -/
inductive Join where
  | no
  | join
  | joined
deriving DecidableEq, Repr

structure Cfg where
  tag : Tag
  join : Join
  /-- how the coroutine of the thread ends: by an exception, or not -/
  out : Option Nat
deriving DecidableEq, Repr

/-- What the awaiter gets. -/
inductive Got where
  /-- returned, `result` with a value, or a tuple of an empty `exception_ptr` -/
  | ok
  /-- the exception of the thread -/
  | exn (x : Nat)
  /-- `std::system_error` from `std::thread::join` of a thread that is not joinable -/
  | notJoinable
deriving DecidableEq, Repr

/-- Program counter of the awaiter: `await_ready` (detail/thread.hpp:128-134),
`await_suspend` (136-164), `await_resume` (166-200). -/
inductive APc where
  | readyLock
  | readyRead
  | readyUnlock (b : Bool)
  | suspLock
  | suspRead
  | suspEmplace
  | suspUnlock
  | suspBack
  | waiting
  | resume
  | fin
deriving DecidableEq, Repr

/-- Program counter of the thread (`run_thread`, src/thread.cpp:65-71). -/
inductive FPc where
  | body
  | clear
  | lock
  | check
  | unlock
  | fin
deriving DecidableEq, Repr

structure St where
  done : Bool := false
  owner : Option Who := none
  waitor : Bool := false
  /-- the handler posted to the awaiter's executor -/
  posted : Option (Option Nat) := none
  /-- `res` of the awaitable -/
  res : Option (Option Nat) := none
  apc : APc := .readyLock
  fpc : FPc := .body
  /-- `std::terminate`: an exception left the thread function -/
  term : Bool := false
  /-- an empty optional was dereferenced -/
  ub : Bool := false
  got : List Got := []
deriving DecidableEq, Repr

/-- The value of `await_resume` (detail/thread.hpp:172-175, 184-189, 199). -/
def result (c : Cfg) (s : St) : St :=
  match s.res, c.tag with
  | none, .tuple => { s with ub := true, apc := .fin }
  | none, _ => { s with got := s.got ++ [.ok], apc := .fin }
  | some none, _ => { s with got := s.got ++ [.ok], apc := .fin }
  | some (some x), _ => { s with got := s.got ++ [.exn x], apc := .fin }

/-- A step of the awaiter. -/
def stepA (c : Cfg) (s : St) : St :=
  match s.apc with
  | .readyLock =>
    if c.join = .joined ∧ s.fpc ≠ .fin then s
    else if s.owner = none then { s with owner := some .A, apc := .readyRead } else s
  | .readyRead => { s with apc := .readyUnlock s.done }
  | .readyUnlock b => { s with owner := none, apc := if b then .resume else .suspLock }
  | .suspLock => if s.owner = none then { s with owner := some .A, apc := .suspRead } else s
  | .suspRead => { s with apc := if s.done then .suspBack else .suspEmplace }
  | .suspEmplace => { s with waitor := true, apc := .suspUnlock }
  | .suspUnlock => { s with owner := none, apc := .waiting }
  | .suspBack => { s with owner := none, apc := .resume }
  | .waiting => match s.posted with
    | none => s
    | some e => { s with posted := none, res := some e, apc := .resume }
  | .resume => match c.join with
    | .no => result c s
    | .join => if s.fpc = .fin then result c s else s
    | .joined => { s with got := s.got ++ [.notJoinable], apc := .fin }
  | .fin => s

/-- A step of the thread: `done = true`, clear the slot, lock, look for a waiter, unlock. -/
def stepF (c : Cfg) (s : St) : St :=
  match s.fpc with
  | .body => { s with done := true, fpc := .clear }
  | .clear => { s with fpc := .lock }
  | .lock => if s.owner = none then { s with owner := some .F, fpc := .check } else s
  | .check =>
    if s.waitor then { s with waitor := false, posted := some c.out, fpc := .unlock }
    else match c.out with
      | some _ => { s with term := true }
      | none => { s with fpc := .unlock }
  | .unlock => { s with owner := none, fpc := .fin }
  | .fin => s

/-- Nothing happens after `std::terminate` or undefined behaviour. -/
def St.step (c : Cfg) (s : St) (w : Who) : St :=
  if s.term ∨ s.ub then s else match w with
  | .A => stepA c s
  | .F => stepF c s

def St.run (c : Cfg) (sched : List Who) : St := sched.foldl (St.step c) {}

/-! ### The thread object -/

/-- `thread` (thread.hpp:74-75): whether `state_` is set and `thread_` joinable. -/
structure Obj where
  state : Bool := true
  joinable : Bool := true
deriving DecidableEq, Repr

/-- Operations on the object: `co_await t`, `co_await std::move(t)`, `join`, `detach`. -/
inductive Op where
  | awaitL
  | awaitR
  | join
  | detach
deriving DecidableEq, Repr

/-- The outcome of an operation. An await gives the kind of join its awaitable does. -/
inductive OpRes where
  | done
  | awaits (j : Join)
  /-- `std::invalid_argument("Thread expired")` (detail/thread.hpp:130-131) -/
  | expired
  /-- `std::system_error` -/
  | notJoinable
  /-- `std::terminate`: a joinable `std::thread` was destroyed -/
  | terminate
deriving DecidableEq, Repr

/-- thread.hpp:95-104, src/thread.cpp:94-100. `detach` of a thread that is not joinable
throws before `state_` is reset. If `await_ready` throws, the awaitable is destroyed with
the thread moved into it. -/
def Obj.op (o : Obj) : Op → Obj × OpRes
  | .awaitL => ({ o with state := false }, if o.state then .awaits .no else .expired)
  | .awaitR => (⟨false, false⟩,
      if o.state then .awaits (if o.joinable then .join else .joined)
      else if o.joinable then .terminate else .expired)
  | .join => if o.joinable then ({ o with joinable := false }, .done) else (o, .notJoinable)
  | .detach => if o.joinable then (⟨false, false⟩, .done) else (o, .notJoinable)

/-- A list of operations on a fresh object. -/
def Obj.ops : Obj → List Op → List OpRes
  | _, [] => []
  | o, a :: as => (o.op a).2 :: Obj.ops (o.op a).1 as

end Cobalt.Thr
