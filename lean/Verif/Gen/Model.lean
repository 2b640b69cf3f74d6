import Verif.Prom.Model
/-!
# Model of `generator`

Sources: `include/boost/cobalt/generator.hpp`, `include/boost/cobalt/detail/generator.hpp`.

One generator object with its coroutine, any number of awaits.

Simplifications:
* Values, exceptions and pushed values are numbers. For `Push = void` (`void`) the number
  pushed stands for the await it came with; the code has a `bool` instead.
* A body is a sequence of `co_await this_coro::initial`, yields and internal operations,
  ended by a return, an exception or its destruction. While it runs or waits in an
  internal operation it is `running`; any event can come in between.
* A failed `BOOST_ASSERT` counts as undefined behaviour (`ub`). So does using an empty
  `optional`. Undefined behaviour is final.
* Flowing off the end of the body (no `co_return`) is undefined in C++ and left out.
* The generator object is not constructed from `noop`. Moves are in `Gen/MoveModel.lean`.
* Cancellation signals, executors and allocators are left out.
* `generator_receiver::interrupt_await` (detail/generator.hpp:331-335) cannot be reached
  from outside and is left out.
-/
namespace Cobalt.Gen

open Prom (upd upd_apply)

inductive Err where
  | user (e : Nat)
  | detached
  | alreadyAwaited
  | unexpected
  /-- "cobalt::generator returned void" (detail/generator.hpp:275) -/
  | returnedVoid
  /-- only of a generator that was moved from: see `Gen/MoveModel.lean` -/
  | movedFrom
deriving DecidableEq, Repr

/-- What an await or `get` gives. -/
inductive Got where
  | val (v : Nat)
  | err (e : Err)
deriving DecidableEq, Repr

/-- Where the body is: running (or in an internal operation); suspended at a yield or at
`initial` with its handle in `yield_from`; in the lambda posted by `await_resume`
(detail/generator.hpp:306-313); destroyed; left by an exception nobody took. -/
inductive Phase where
  | running
  | parked
  | posted
  | gone
  | stuck
deriving DecidableEq, Repr

/-- `generator_receiver::awaitable` (detail/generator.hpp:179-184). `toPush`: the pushed
value is still in the awaitable. `got` is what the await gave. -/
structure Aw where
  push : Nat
  toPush : Bool := true
  ex : Option Err := none
  got : Option Got := none
deriving DecidableEq, Repr

/-- The receiver (detail/generator.hpp:44, 75-95) and the body. -/
structure St where
  /-- `Push` is `void` -/
  void : Bool := false
  /-- the generator object exists -/
  recv : Bool := true
  phase : Phase := .running
  lazy : Bool := false
  result : Option Nat := none
  buffer : Option Nat := none
  exc : Option Err := none
  done : Bool := false
  awaited : Option Nat := none
  pushed : Option Nat := none
  aw : Nat → Option Aw := fun _ => none
  /-- awaits and calls of `get` that have ended, newest first -/
  log : List (Nat × Got) := []
  /-- results of the suspension points of the body, newest first -/
  received : List Nat := []
  /-- awaiting coroutines that were destroyed -/
  killed : List Nat := []
  ub : Bool := false

namespace St

/-- `generator_receiver::ready` (detail/generator.hpp:95). -/
def ready (s : St) : Bool := s.exc.isSome || s.result.isSome || s.done

/-- `operator bool` (generator.hpp:85-88). -/
def toBool (s : St) : Bool := !s.done || s.result.isSome || s.exc.isSome

/-- The awaitable `a` has given `g`. -/
def give (s : St) (a : Nat) (w : Aw) (g : Got) : St :=
  { s with aw := upd s.aw a (some { w with got := some g }), log := (a, g) :: s.log }

/-- The end of `await_resume` for result `v`: resume the body, take the result
(detail/generator.hpp:300-316, 77-88). -/
def takeResult (s : St) (a : Nat) (w : Aw) (v : Nat) : St :=
  give { s with
    phase := if s.phase = .parked ∧ s.lazy = false then .posted else s.phase
    result := s.buffer
    buffer := none } a w (.val v)

/-- `await_resume` of `a` (detail/generator.hpp:267-318). -/
def resumeAw (s : St) (a : Nat) : St :=
  match s.aw a with
  | none => { s with ub := true }
  | some w =>
    match w.ex with
    | some e => give s a w (.err e)
    | none =>
      match s.exc with
      | some e => give { s with exc := none } a w (.err e)
      | none =>
        match s.result with
        | none => give s a w (.err .returnedVoid)
        | some v =>
          if w.toPush then
            if s.pushed ≠ none then { s with ub := true }
            else takeResult { s with pushed := some w.push } a { w with toPush := false } v
          else takeResult s a w v

/-- A suspension point of the body gives the pushed value: `await_resume` of
`generator_yield_awaitable` (detail/generator.hpp:536-541, 580-584). -/
def bodyResume (s : St) : St :=
  match s.pushed with
  | none => { s with ub := true }
  | some v => { s with phase := .running, pushed := none, received := v :: s.received }

/-- Resume the awaiting coroutine, if there is one. -/
def wake (s : St) : St :=
  match s.awaited with
  | none => s
  | some a => resumeAw { s with awaited := none } a

/-- The body reaches a suspension point: `generator_yield_awaitable`
(detail/generator.hpp:496-587). -/
def suspend (s : St) : St :=
  if s.recv = false then { s with phase := .gone }
  else if s.pushed ≠ none ∧ (s.void = true ∨ s.result = none) then bodyResume s
  else wake { s with phase := .parked }

/-- `yield_value` of the receiver (detail/generator.hpp:166-177). -/
def put (s : St) (v : Nat) : St :=
  if s.result = none then { s with result := some v }
  else if s.buffer = none then { s with buffer := some v }
  else { s with ub := true }

/-- The body has reached its end: the final awaitable and the destruction of the frame
(detail/generator.hpp:385-421, 482-491). -/
def finish (s : St) : St := wake { s with phase := .gone, done := true }

/-- `co_await` of the generator by `a` with pushed value `p`
(detail/generator.hpp:200-250). -/
def await (s : St) (a p : Nat) : St :=
  let s := { s with aw := upd s.aw a (some { push := p }) }
  if s.ready then resumeAw s a
  else if s.awaited ≠ none then resumeAw { s with aw := upd s.aw a (some { push := p, ex := some .alreadyAwaited }) } a
  else
    let s := { s with awaited := some a }
    let s := if s.lazy = true ∧ s.pushed = none then
        { s with pushed := some p, aw := upd s.aw a (some { push := p, toPush := false }) }
      else s
    if s.phase = .parked then bodyResume s else s

/-- `interrupt_await` of awaitable `a` (detail/generator.hpp:320-328). -/
def interrupt (s : St) (a : Nat) : St :=
  match s.aw a with
  | none => { s with ub := true }
  | some w => wake { s with aw := upd s.aw a (some { w with ex := some .detached }) }

/-- The coroutine waiting for the generator is destroyed. -/
def dead (s : St) : List Nat :=
  match s.awaited with
  | none => s.killed
  | some a => a :: s.killed

/-- The frame is destroyed while the body waits in an internal operation or in the posted
lambda (detail/generator.hpp:482-491). -/
def kill (s : St) : St :=
  if s.recv then { s with
    phase := .gone
    exc := if s.done = false ∧ s.exc = none then some .unexpected else s.exc
    done := true
    awaited := none
    killed := s.dead }
  else { s with phase := .gone }

/-- `~generator` and `~generator_receiver` (generator.hpp:109,
detail/generator.hpp:117-121). A body suspended at a yield is destroyed with
`yield_from`. -/
def drop (s : St) : St :=
  { s with
    recv := false
    phase := if s.phase = .parked then .gone else s.phase
    awaited := none
    killed := s.dead }

/-- `generator::get` (generator.hpp:101-106), logged as `a`. -/
def get (s : St) (a : Nat) : St :=
  match s.exc with
  | some e => give s a { push := 0, toPush := false } (.err e)
  | none =>
    match s.result with
    | none => { s with ub := true }
    | some v => give { s with result := s.buffer, buffer := none } a { push := 0, toPush := false } (.val v)

end St

inductive Ev where
  /-- the body reaches `co_await this_coro::initial` -/
  | initial
  | yield (v : Nat)
  | ret (v : Nat)
  | throw (e : Nat)
  /-- the frame is destroyed by the executor or by the operation it waits for -/
  | kill
  /-- the executor runs the posted lambda -/
  | run
  | await (a p : Nat)
  | interrupt (a : Nat)
  | get (a : Nat)
  | drop
deriving DecidableEq, Repr

/-- Which events are possible. -/
def St.can (s : St) : Ev → Bool
  | .initial | .yield _ | .ret _ | .throw _ => s.phase == .running
  | .kill => s.phase == .running || s.phase == .posted
  | .run => s.phase == .posted
  | .await a _ | .get a => s.recv && (s.aw a).isNone
  | .interrupt a => s.recv && (s.aw a).isSome && !s.killed.contains a
  | .drop => s.recv

namespace St

/-- One event. Nothing changes after undefined behaviour. -/
def step (s : St) (e : Ev) : St :=
  if s.ub || !s.can e then s else
  match e with
  -- detail/generator.hpp:449-458
  | .initial => suspend (if s.recv then { s with lazy := true } else s)
  -- detail/generator.hpp:461-471
  | .yield v => if s.recv then (if (put s v).ub then put s v else suspend (put s v)) else suspend s
  -- detail/generator.hpp:435-445
  | .ret v => if s.recv then (if (put s v).ub then put s v else finish (put s v)) else { s with phase := .gone }
  -- detail/generator.hpp:427-433
  | .throw e => if s.recv then finish { s with exc := some (.user e) } else { s with phase := .stuck }
  | .kill => kill s
  | .run => if s.recv then bodyResume s else { s with phase := .gone }
  | .await a p => await s a p
  | .interrupt a => interrupt s a
  | .get a => get s a
  | .drop => drop s

def steps (s : St) (es : List Ev) : St := es.foldl step s

/-- A generator of the given kind, after the given events. -/
def run (void : Bool) (es : List Ev) : St := steps { void := void } es

end St

end Cobalt.Gen
