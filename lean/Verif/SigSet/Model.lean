/-!
# Model of signal sets

Sources:
* `include/boost/cobalt/io/signal_set.hpp:21-46` and `src/io/signal_set.cpp:13-53`: `add`, `remove`, `clear` and `cancel` ask
  the `asio::basic_signal_set`; `co_await set.wait()` starts its `async_wait` with the handler of the coroutine.
* `include/boost/cobalt/op.hpp:36-150`: the coroutine is resumed when the handler runs, with what the handler was given.
* `include/boost/cobalt/detail/race.hpp:135-150, 232-276`: a race that is won cancels the operations of the others and takes no
  result from them.
* `src/main.cpp:35-60`: `co_main` has a set of its own, with `SIGINT` and `SIGTERM`.

What Asio does (`detail/impl/signal_set_service.ipp`) belongs to the trusted base:
* A set has a list of registrations in the order of the signal numbers, each with the number of signals that came and were not
  delivered, and a queue of waits.
* A signal is delivered to every set it is registered in: all waits in the queue complete with it, and if there are none,
  it is counted.
* A wait takes the first registration with a count above zero; if there is none, it goes into the queue.
* `cancel` aborts all waits in the queue, a cancellation slot only its own. A wait that has completed is not touched.
* `remove` and `clear` forget the counts. The queue stays.

Simplifications:
* `add`, `remove`, `clear` and `cancel` do not fail. No flags are used.
* Sets are not destroyed, and neither are coroutines that wait.
* Signals of the same number that the operating system merges are one signal.
* The handlers of waits that are complete run in any order.
-/
namespace Cobalt.SigSet

/-- How a wait ends. -/
inductive Out where
  | sig (n : Nat)
  | aborted
deriving DecidableEq, Repr

inductive Stage where
  | queued
  /-- the handler is on its way -/
  | posted (o : Out)
  | done
deriving DecidableEq, Repr

/-- A `co_await set.wait()`. `dropped`: it is part of a race that something else has won. -/
structure Wait where
  set : Nat
  stage : Stage := .queued
  dropped : Bool := false
deriving DecidableEq, Repr

structure St where
  regs : Nat → List Nat := fun _ => []
  /-- signals that were not delivered -/
  count : Nat → Nat → Nat := fun _ _ => 0
  waits : List Wait := []
  /-- what coroutines were told, by which set -/
  log : List (Nat × Out) := []

inductive Ev where
  | add (k n : Nat)
  | remove (k n : Nat)
  | clear (k : Nat)
  | cancel (k : Nat)
  /-- the process gets a signal -/
  | signal (n : Nat)
  /-- a coroutine awaits `wait()` -/
  | wait (k : Nat)
  /-- the wait is cancelled through its slot -/
  | abort (i : Nat)
  /-- something else wins the race the wait is part of -/
  | drop (i : Nat)
  /-- the handler runs -/
  | run (i : Nat)
deriving DecidableEq, Repr

/-- The list of registrations is in order, without repetitions. -/
def insert (n : Nat) : List Nat → List Nat
  | [] => [n]
  | m :: l => if n < m then n :: m :: l else if n = m then m :: l else m :: insert n l

def Wait.abort (w : Wait) : Wait :=
  match w.stage with
  | .queued => { w with stage := .posted .aborted }
  | _ => w

/-- Signal `n` comes to a wait. `regs`: the registrations of its set. -/
def Wait.deliver (n : Nat) (regs : List Nat) (w : Wait) : Wait :=
  if w.stage = .queued ∧ n ∈ regs then { w with stage := .posted (.sig n) } else w

/-- A wait of set `k` is in its queue. -/
def Wait.queuedAt (k : Nat) (w : Wait) : Bool := w.set == k && w.stage == .queued

def St.signal (s : St) (n : Nat) : St :=
  { s with
    waits := s.waits.map fun w => w.deliver n (s.regs w.set)
    count := fun k m => if m = n ∧ n ∈ s.regs k ∧ s.waits.any (Wait.queuedAt k) = false then s.count k m + 1 else s.count k m }

def St.wait (s : St) (k : Nat) : St :=
  match (s.regs k).find? fun n => decide (0 < s.count k n) with
  | some n =>
    { s with
      waits := s.waits ++ [{ set := k, stage := .posted (.sig n) }]
      count := fun k' m => if k' = k ∧ m = n then s.count k' m - 1 else s.count k' m }
  | none => { s with waits := s.waits ++ [{ set := k }] }

/-- The coroutine goes on, if it is not part of a race that is over. -/
def St.finish (s : St) (i : Nat) (w : Wait) (o : Out) : St :=
  { s with waits := s.waits.set i { w with stage := .done }, log := if w.dropped then s.log else s.log ++ [(w.set, o)] }

def St.runWait (s : St) (i : Nat) : St :=
  match s.waits[i]? with
  | some w =>
    match w.stage with
    | .posted o => s.finish i w o
    | _ => s
  | none => s

def St.act (s : St) : Ev → St
  | .add k n => { s with regs := fun j => if j = k then insert n (s.regs j) else s.regs j }
  | .remove k n =>
    { s with
      regs := fun j => if j = k then (s.regs j).filter (· != n) else s.regs j
      count := fun j m => if j = k ∧ m = n then 0 else s.count j m }
  | .clear k =>
    { s with
      regs := fun j => if j = k then [] else s.regs j
      count := fun j m => if j = k then 0 else s.count j m }
  | .cancel k => { s with waits := s.waits.map fun w => if w.set = k then w.abort else w }
  | .signal n => s.signal n
  | .wait k => s.wait k
  | .abort i =>
    match s.waits[i]? with
    | some w => { s with waits := s.waits.set i w.abort }
    | none => s
  | .drop i =>
    match s.waits[i]? with
    | some w => { s with waits := s.waits.set i { w.abort with dropped := true } }
    | none => s
  | .run i => s.runWait i

def St.isPosted (w : Wait) : Bool :=
  match w.stage with
  | .posted _ => true
  | _ => false

/-- Which events are possible. A race drops a wait once, before it has ended. -/
def St.can (s : St) : Ev → Bool
  | .run i => (s.waits[i]?).any St.isPosted
  | .drop i => (s.waits[i]?).any fun w => !w.dropped && w.stage != .done
  | _ => true

def St.step (s : St) (e : Ev) : St := if s.can e then s.act e else s

def St.steps (s : St) (es : List Ev) : St := es.foldl St.step s

def St.run (es : List Ev) : St := St.steps {} es

/-- A possible history. -/
def Legal : St → List Ev → Prop
  | _, [] => True
  | s, e :: es => s.can e = true ∧ Legal (s.step e) es

instance Legal.dec : ∀ (s : St) (es : List Ev), Decidable (Legal s es)
  | _, [] => isTrue trivial
  | s, e :: es =>
    haveI := Legal.dec (s.step e) es
    inferInstanceAs (Decidable (s.can e = true ∧ Legal (s.step e) es))

end Cobalt.SigSet
