/-!
# Model of coroutines on strands that several threads run

Sources: `op.hpp:60-85` (`await_suspend`), `detail/handler.hpp:252-267` (`completion_handler::operator()`),
`detail/spawn.hpp:97,163` (the start is dispatched on the executor), `promise.hpp` (a promise
starts where it is called), `example/thread_pool.cpp`, `test/strand.cpp`.

Several threads run one context. A coroutine has an executor: a strand, or the executor of the
context itself. `await_suspend` hands the completion handler to the operation and after that
reads and writes `completed_immediately`, a member of the awaitable in the frame of the coroutine.
The completion handler reads it as well and resumes the coroutine.

Simplifications: the body of a coroutine awaits a number of operations, one after the other,
and ends. Operations do not complete inside `initiate` (see C33, C34), and complete through the
executor of the coroutine. Threads take turns at the steps below; asio's queues and strands are
trusted: a strand gives its jobs to one thread at a time. What else is in the frame is not part of
the model; a completion handler that runs while another thread is in `await_suspend` of the same
coroutine is a data race, undefined.
-/
namespace Cobalt.Strand

inductive Ex where
  | strand (k : Nat)
  /-- the executor of the context, which any of its threads serves -/
  | pool
deriving DecidableEq, Repr

/-- What is run. -/
structure Cfg where
  /-- threads that run the context -/
  nT : Nat
  /-- coroutines -/
  nC : Nat
  ex : Nat → Ex
  /-- how many operations it awaits -/
  ops : Nat → Nat
  /-- the thread that calls it, outside of the strand (test/strand.cpp:55); `none` if it is
  spawned (example/thread_pool.cpp:61-63) -/
  direct : Nat → Option Nat

/-- Where a thread is: in coroutine `c`, inside of its executor or not. -/
inductive Pc where
  /-- it looks for a job -/
  | idle
  /-- in the body of the coroutine -/
  | run (c : Nat) (inside : Bool)
  /-- in `await_suspend`, after `initiate` (op.hpp:73) -/
  | sus1 (c : Nat) (inside : Bool)
  /-- after the assignment to `completed_immediately` (op.hpp:75-76) -/
  | sus2 (c : Nat) (inside : Bool)
deriving DecidableEq, Repr

/-- Where a coroutine is. -/
inductive W where
  | fresh
  | busy
  /-- its operation has been started -/
  | pending
  /-- the operation is complete, the handler is in the queue of the executor -/
  | ready
  | done
deriving DecidableEq, Repr

structure St where
  pc : Nat → Pc := fun _ => .idle
  w : Nat → W := fun _ => .fresh
  /-- operations still to be awaited -/
  left : Nat → Nat
  /-- strands a thread is in -/
  held : Nat → Bool := fun _ => false
  /-- two threads have used the same frame at a time -/
  race : Bool := false

def upd {α : Type} (f : Nat → α) (i : Nat) (a : α) : Nat → α := fun j => if j = i then a else f j

def Cfg.init (g : Cfg) : St := { left := g.ops }

inductive Ev where
  /-- thread `t` calls coroutine `c` -/
  | start (t c : Nat)
  /-- thread `t` takes a job of coroutine `c` from the queue of its executor -/
  | pick (t c : Nat)
  /-- the operation `c` waits for completes -/
  | io (c : Nat)
  /-- thread `t` goes on -/
  | step (t : Nat)
deriving DecidableEq, Repr

/-- The thread is in `await_suspend` of `c`. -/
def Pc.suspends (p : Pc) (c : Nat) : Bool :=
  match p with
  | .sus1 d _ | .sus2 d _ => d = c
  | _ => false

/-- The executor of `c` gives out a job. -/
def Cfg.free (g : Cfg) (s : St) (c : Nat) : Bool :=
  match g.ex c with
  | .strand k => !s.held k
  | .pool => true

/-- A thread enters the executor of `c`, or leaves it. -/
def Cfg.hold (g : Cfg) (s : St) (c : Nat) (b : Bool) : Nat → Bool :=
  match g.ex c with
  | .strand k => upd s.held k b
  | .pool => s.held

/-- It leaves it if it is inside. -/
def Cfg.release (g : Cfg) (s : St) (c : Nat) (inside : Bool) : Nat → Bool :=
  if inside then g.hold s c false else s.held

/-- There is a job: the start of a spawned coroutine, or a completion. -/
def Cfg.job (g : Cfg) (s : St) (c : Nat) : Bool :=
  c < g.nC ∧ (s.w c = .ready ∨ (s.w c = .fresh ∧ g.direct c = none))

/-- Some thread is in `await_suspend` of `c`. -/
def Cfg.inside (g : Cfg) (s : St) (c : Nat) : Bool :=
  (List.range g.nT).any fun t => (s.pc t).suspends c

/-- Thread `t` goes on. -/
def Cfg.go (g : Cfg) (s : St) (t : Nat) : Pc → Option St
  | .idle => none
  | .run c i =>
    if s.left c = 0 then
      some { s with w := upd s.w c .done, pc := upd s.pc t .idle, held := g.release s c i }
    else
      some { s with w := upd s.w c .pending, left := upd s.left c (s.left c - 1)
                    pc := upd s.pc t (.sus1 c i) }
  | .sus1 c i => some { s with pc := upd s.pc t (.sus2 c i) }
  | .sus2 c i => some { s with pc := upd s.pc t .idle, held := g.release s c i }

/-- One event, if it is possible. -/
def Cfg.next (g : Cfg) (s : St) : Ev → Option St
  | .start t c =>
    if t < g.nT ∧ c < g.nC ∧ s.pc t = .idle ∧ g.direct c = some t ∧ s.w c = .fresh then
      some { s with w := upd s.w c .busy, pc := upd s.pc t (.run c false) }
    else none
  | .pick t c =>
    if t < g.nT ∧ s.pc t = .idle ∧ g.job s c = true ∧ g.free s c = true then
      if g.inside s c then some { s with race := true }
      else
        some { s with w := upd s.w c .busy, pc := upd s.pc t (.run c true)
                      held := g.hold s c true }
    else none
  | .io c =>
    if c < g.nC ∧ s.w c = .pending then some { s with w := upd s.w c .ready } else none
  | .step t => if t < g.nT then g.go s t (s.pc t) else none

/-- Events one after the other, all possible, until there is a race. -/
inductive Runs (g : Cfg) : St → List Ev → St → Prop where
  | nil (s : St) : Runs g s [] s
  | cons {s s' s'' : St} {e : Ev} {es : List Ev} (h : s.race = false) (h1 : g.next s e = some s')
      (h2 : Runs g s' es s'') : Runs g s (e :: es) s''

end Cobalt.Strand
