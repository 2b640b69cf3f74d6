/-!
# Model of the bridge to Python of example/python.cpp

A `py_coroutine` (lines 114-207) is an object of Python that holds a suspended coroutine. `await obj` in Python makes a future
and calls `initiate`, which takes the handle out of the object and resumes the coroutine (lines 319-327, 164-181). A `co_yield`
has the loop set the result of the future and puts the handle back into the object (lines 138-144); a `co_return` or an
exception has it set the result or the exception, after which the frame is freed (lines 117-136). `py_awaitable` (lines 210-277)
lets the coroutine await a task of Python.

Of asyncio is assumed: `call_soon` runs callbacks in the order they were given; `set_result` on a future that was cancelled
raises, and the loop goes on; cancelling a task that awaits a future cancels the future; `exception()` of a task that was
cancelled raises; a callback that raised is freed. Who awaits an object has a reference to it (`self` in line 320).

Simplified: one object; a future and the one who awaits it are one thing, which gets the result when it is set; a future is
named by a number, used once. That the coroutine is suspended for something other than a task of Python is not an event: it
may do its next step at any time while it runs. A conversion to Python that fails is an exception of the coroutine (line 129).
A `py_awaitable` is awaited by the coroutine itself; in the example (lines 296-300, 360-364) by a promise it awaits, whose
destructor passes the destruction on (detail/promise.hpp:360-371). One thread, the one of the loop.
-/
namespace Cobalt.Py

/-- How a step of the coroutine, or a task of Python, ends. -/
inductive Out
  | val (v : Nat)
  | exc (e : Nat)
deriving DecidableEq, Repr

/-- What the coroutine does. -/
inductive Act
  | yield (v : Nat)
  | ret (v : Nat)
  | throw (e : Nat)
deriving DecidableEq, Repr

/-- How an `await obj` ended. -/
inductive Got
  | out (o : Out)
  | invalid      -- "Awaited invalid coroutine" (line 167)
  | stop         -- "coroutine completed" (line 170)
  | cancelled
deriving DecidableEq, Repr

/-- A task of Python the coroutine awaits. -/
inductive Task
  | pending
  | ended (o : Out)
  | cancelled
deriving DecidableEq, Repr

structure St where
  alive : Bool := true               -- the object of Python
  handle : Bool := true              -- `handle_` (line 206)
  frame : Bool := true
  freed : Nat := 0                   -- how often the frame was freed
  done : Bool := false               -- `done_` (line 154)
  running : Bool := false            -- resumed by `initiate`, has not yielded nor ended
  future : Nat := 0                  -- `future` of the promise (line 147)
  task : Option Task := none         -- what the coroutine awaits
  pending : List Nat := []           -- the futures without a result
  queue : List (Nat × Out) := []     -- what was given to `call_soon`
  got : List (Nat × Got) := []       -- how awaits ended, in order
  lost : List (Nat × Out) := []      -- what was set on a future that was cancelled
  resumed : List Out := []           -- what awaiting tasks of Python gave the coroutine
  tls : Option Nat := none           -- the loop of `cobalt::this_thread::get_executor`
  ub : Bool := false
deriving DecidableEq, Repr

inductive Ev
  | await (f : Nat) (loop : Nat)   -- Python awaits the object, with the future `f`, on a loop
  | act (a : Act)                  -- the coroutine
  | callback                       -- the loop runs the next callback
  | cancel (f : Nat)               -- who awaits is cancelled
  | drop                           -- the last reference to the object goes
  | awaitTask                      -- the coroutine awaits a task of Python
  | taskEnds (t : Option Out)      -- the task ends, `none`: it was cancelled
  | taskCallback                   -- its callback runs (lines 231-235)
deriving DecidableEq, Repr

/-- `initiate` (lines 164-181). -/
def St.await (s : St) (f l : Nat) : St :=
  if s.handle = false then { s with got := s.got ++ [(f, .invalid)] }
  else if s.done then { s with got := s.got ++ [(f, .stop)] }
  else { s with
    future := f, handle := false, running := true, pending := s.pending ++ [f]
    tls := some (s.tls.getD l) }

/-- `yield_value`, `return_value`, `unhandled_exception` and `final_suspend` (lines 117-144). The object that
`yield_value` puts the handle into may be gone. -/
def St.act (s : St) : Act → St
  | .yield v =>
    if s.alive then { s with queue := s.queue ++ [(s.future, .val v)], handle := true, running := false }
    else { s with ub := true }
  | .ret v => { s with
      done := true, queue := s.queue ++ [(s.future, .val v)], running := false, frame := false, freed := s.freed + 1 }
  | .throw e => { s with
      done := true, queue := s.queue ++ [(s.future, .exc e)], running := false, frame := false, freed := s.freed + 1 }

/-- `set_result`, `set_exception`. -/
def St.callback (s : St) : St :=
  match s.queue with
  | [] => s
  | (f, o) :: q =>
    if s.pending.contains f then
      { s with queue := q, pending := s.pending.erase f, got := s.got ++ [(f, .out o)] }
    else { s with queue := q, lost := s.lost ++ [(f, o)] }

def St.cancel (s : St) (f : Nat) : St :=
  if s.pending.contains f then { s with pending := s.pending.erase f, got := s.got ++ [(f, .cancelled)] } else s

/-- `~py_coroutine` (lines 199-206). -/
def St.drop (s : St) : St :=
  if s.handle then { s with alive := false, handle := false, frame := false, freed := s.freed + 1 }
  else { s with alive := false }

/-- The callback of a task (lines 231-235, 257-262). If `exception()` raises, the callback, and with it the `unique_handle`
of the coroutine, is freed. -/
def St.taskCallback (s : St) : St :=
  match s.task with
  | some (.ended o) => { s with task := none, resumed := s.resumed ++ [o] }
  | some .cancelled => { s with task := none, running := false, frame := false, freed := s.freed + 1 }
  | _ => s

def St.go (s : St) : Ev → St
  | .await f l => s.await f l
  | .act a => s.act a
  | .callback => s.callback
  | .cancel f => s.cancel f
  | .drop => s.drop
  | .awaitTask => { s with task := some .pending }
  | .taskEnds (some o) => { s with task := some (.ended o) }
  | .taskEnds none => { s with task := some .cancelled }
  | .taskCallback => s.taskCallback

def St.step (s : St) (e : Ev) : St := if s.ub then s else s.go e

def St.steps (s : St) (es : List Ev) : St := es.foldl St.step s

def run (es : List Ev) : St := ({} : St).steps es

/-- What can happen: futures are new; the coroutine does something while it runs and awaits no task; who awaits has a
reference. -/
def Ok (s : St) (used : List Nat) : Ev → Prop
  | .await f _ => s.alive = true ∧ f ∉ used
  | .act _ => s.running = true ∧ s.task = none
  | .callback => s.queue ≠ []
  | .cancel f => f ∈ s.pending
  | .drop => s.alive = true ∧ s.pending = []
  | .awaitTask => s.running = true ∧ s.task = none
  | .taskEnds _ => s.task = some .pending
  | .taskCallback => s.task ≠ none ∧ s.task ≠ some .pending

def Ev.names : Ev → List Nat
  | .await f _ => [f]
  | _ => []

def Legal (s : St) (used : List Nat) : List Ev → Prop
  | [] => True
  | e :: es => Ok s used e ∧ Legal (s.step e) (used ++ e.names) es

instance (s : St) (u : List Nat) (e : Ev) : Decidable (Ok s u e) := by
  cases e <;> (unfold Ok; infer_instance)

instance : ∀ (s : St) (u : List Nat) (es : List Ev), Decidable (Legal s u es)
  | _, _, [] => .isTrue trivial
  | s, u, e :: es => by
    have := (inferInstance : Decidable (Ok s u e))
    have : Decidable (Legal (s.step e) (u ++ e.names) es) := instDecidableLegal _ _ es
    unfold Legal; infer_instance

/-- `done` (lines 183-186). -/
def St.isDone (s : St) : Bool := !s.handle || s.done

/-- `async for` over the object (lines 333-336), if nothing else happens: the coroutine does `acts`, one for each await. What
the body is run with, and the exception that ends the loop. `n` numbers the futures. -/
def forLoop (n : Nat) (s : St) : List Act → List Nat × Option Nat
  | [] => ([], none)
  | a :: as =>
    if s.isDone then ([], none)
    else
      let s := s.steps [.await n 0, .act a, .callback]
      match s.got.getLast? with
      | some (_, .out (.val v)) => let r := forLoop (n + 1) s as; (v :: r.1, r.2)
      | some (_, .out (.exc e)) => ([], some e)
      | _ => ([], none)

end Cobalt.Py
