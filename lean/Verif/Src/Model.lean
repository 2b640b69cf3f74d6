import Verif.Cst.Model
/-!
# Model of coroutines that take a cancellation source

Sources: `this_coro.hpp:90-158` (`promise_cancellation_base`), `detail/detached.hpp:35-86`
(`detached_promise`, the only one that can await `reset_cancellation_source`),
`concepts.hpp:37-59` (`enable_awaitables`), `detail/handler.hpp:150-170` (operations take the slot
of the coroutine); the example in `doc/reference/detached.adoc:35-57`.

`asio::cancellation_signal` and `asio::cancellation_state` are not part of the sources; they are
modelled after their documentation and implementation. A slot refers to the signal it is of, which
holds one handler. `cancellation_state(slot, filter)` destroys the handler of the signal and
puts a new one there, which holds the filters, what was emitted last and a signal for the operations
of the coroutine; the state itself holds a pointer to this handler. The destructor of the signal
destroys the handler.

Simplifications: cancellation types and filters as in `Verif.Cst.Model`. A coroutine waits for
operations only, and what an operation works on outlives it: an operation which has ended ignores
cancellations. Nobody emits on a signal that is gone.
-/
namespace Cobalt.Src
open Cobalt.Cst (CT Filter)

/-- The handler of a `cancellation_state`. -/
structure Impl where
  alive : Bool := false
  inF : Filter := Cst.enableTotal
  outF : Filter := Cst.enableTotal
  cancelled : CT := .none_
  /-- what is in the slot of its signal: operation `k` of coroutine `c` -/
  slot : Option (Nat × Nat) := none

/-- A coroutine. -/
structure Coro where
  alive : Bool := false
  /-- `source_`: the signal its slot is of -/
  src : Option Nat := none
  /-- `state_`: the pointer to the handler -/
  impl : Option Nat := none
  /-- `throw_if_cancelled_` -/
  throwIf : Bool := true
  /-- the operation it waits for -/
  waits : Option Nat := none

/-- A signal. -/
structure Sg where
  alive : Bool := false
  handler : Option Nat := none

/-- What has happened, as one sees it from outside. -/
inductive Act where
  /-- a signal was made, or destroyed -/
  | made (g : Nat)
  | gone (g : Nat)
  /-- the coroutine has taken a source, or none -/
  | took (c g : Nat)
  | left (c : Nat)
  /-- it has reset its cancellation state, with two filters -/
  | reset (c : Nat) (i o : Filter)
  /-- it has started to wait for an operation, and this has ended -/
  | await (c k : Nat)
  | opEnd (c : Nat)
  /-- an await has thrown -/
  | threw (c : Nat)
  /-- `co_await this_coro::cancelled` has given this -/
  | asked (c : Nat) (ct : CT)
  /-- someone has emitted a cancellation -/
  | emit (g : Nat) (ct : CT)
  /-- `co_await this_coro::throw_if_cancelled(b)` -/
  | throwIf (c : Nat) (b : Bool)
  /-- it has ended -/
  | ended (c : Nat)

structure St where
  co : Nat → Coro := fun _ => {}
  im : Nat → Impl := fun _ => {}
  sg : Nat → Sg := fun _ => {}
  /-- numbers of coroutines, handlers, signals and operations not yet used -/
  nc : Nat := 0
  ni : Nat := 0
  ng : Nat := 0
  nk : Nat := 0
  /-- what operations were told, newest first -/
  got : List (Nat × CT) := []
  /-- ghost: what has happened, newest first -/
  log : List Act := []
  /-- a handler or a signal was used that is gone -/
  ub : Bool := false

/-- A function changed at one place. -/
def upd {α : Type} (f : Nat → α) (i : Nat) (a : α) : Nat → α := fun j => if j = i then a else f j

inductive Ev where
  /-- a detached coroutine is called -/
  | call
  /-- a signal is made, or destroyed -/
  | make
  | drop (g : Nat)
  /-- `co_await this_coro::reset_cancellation_source(g.slot())`, and without an argument -/
  | take (c g : Nat)
  | leave (c : Nat)
  /-- `co_await this_coro::reset_cancellation_state(i, o)` -/
  | reset (c : Nat) (i o : Filter)
  /-- it awaits an operation -/
  | await (c : Nat)
  /-- the operation it waits for completes -/
  | opEnds (c : Nat)
  /-- `co_await this_coro::cancelled` -/
  | ask (c : Nat)
  | emit (g : Nat) (ct : CT)
  | throwIf (c : Nat) (b : Bool)
  /-- the coroutine ends -/
  | ret (c : Nat)

namespace St

/-- The coroutine runs. -/
def runs (s : St) (c : Nat) : Bool := (s.co c).alive && (s.co c).waits.isNone

/-- The handler in a signal is destroyed. -/
def clear (s : St) (g : Nat) : Nat → Impl :=
  match (s.sg g).handler with
  | some k => upd s.im k { s.im k with alive := false }
  | none => s.im

/-- `state_ = asio::cancellation_state(source_, i, o)` where `source_` is of signal `g`
(this_coro.hpp:150, 211, 233, 259). -/
def renew (s : St) (c g : Nat) (i o : Filter) : St :=
  if (s.sg g).alive then
    { s with im := upd (s.clear g) s.ni { alive := true, inF := i, outF := o }
             sg := upd s.sg g { s.sg g with handler := some s.ni }
             co := upd s.co c { s.co c with src := some g, impl := some s.ni }
             ni := s.ni + 1 }
  else { s with ub := true }

/-- `state_.cancelled()`, `none` if the handler is gone. -/
def cancelled (s : St) (c : Nat) : Option CT :=
  match (s.co c).impl with
  | none => some .none_
  | some k => if (s.im k).alive then some (s.im k).cancelled else none

/-- The handler of a slot, an operation, is told; one that has ended ignores it. -/
def tell (s : St) (w : Option (Nat × Nat)) (ct : CT) : List (Nat × CT) :=
  match w with
  | some (c, k) => if (s.co c).waits = some k then (k, ct) :: s.got else s.got
  | none => s.got

/-- `operator()` of handler `k`. -/
def fire (s : St) (k : Nat) (ct : CT) : St :=
  { s with im := upd s.im k { s.im k with cancelled := (s.im k).inF ct }
           got := if (s.im k).outF ((s.im k).inF ct) = .none_ then s.got
                  else s.tell (s.im k).slot ((s.im k).outF ((s.im k).inF ct)) }

/-- The operation goes into the slot of the state (detail/handler.hpp:153), if it is connected. -/
def place (s : St) (c : Nat) : Nat → Impl :=
  match (s.co c).impl with
  | some k => upd s.im k { s.im k with slot := some (c, s.nk) }
  | none => s.im

/-- Something has happened. -/
def note (s : St) (a : Act) : St := { s with log := a :: s.log }

/-- One event. What is not possible does nothing. -/
def step (s : St) : Ev → St
  | .call => { s with co := upd s.co s.nc { alive := true }, nc := s.nc + 1 }
  | .make => { s with sg := upd s.sg s.ng { alive := true }, ng := s.ng + 1 }.note (.made s.ng)
  | .drop g =>
    if (s.sg g).alive then
      { s with im := s.clear g, sg := upd s.sg g {} }.note (.gone g)
    else s
  -- detached.hpp:52-57, this_coro.hpp:147-152
  | .take c g =>
    if s.runs c then (s.renew c g Cst.enableTotal Cst.enableTotal).note (.took c g) else s
  | .leave c =>
    if s.runs c then
      { s with co := upd s.co c { s.co c with src := none, impl := none } }.note (.left c)
    else s
  -- this_coro.hpp:113-137
  | .reset c i o =>
    if s.runs c then
      match (s.co c).src with
      | some g => (s.renew c g i o).note (.reset c i o)
      | none => s.note (.reset c i o)
    else s
  -- concepts.hpp:44-58
  | .await c =>
    if s.runs c then
      match s.cancelled c with
      | none => { s with ub := true }.note (.await c s.nk)
      | some ct =>
        if ct ≠ .none_ ∧ (s.co c).throwIf = true then s.note (.threw c)
        else
          { s with im := s.place c, co := upd s.co c { s.co c with waits := some s.nk }
                   nk := s.nk + 1 }.note (.await c s.nk)
    else s
  | .opEnds c =>
    if (s.co c).alive ∧ (s.co c).waits.isSome then
      { s with co := upd s.co c { s.co c with waits := none } }.note (.opEnd c)
    else s
  -- this_coro.hpp:102-105
  | .ask c =>
    if s.runs c then
      match s.cancelled c with
      | none => { s with ub := true }.note (.asked c .none_)
      | some ct => s.note (.asked c ct)
    else s
  | .emit g ct =>
    if (s.sg g).alive then
      match (s.sg g).handler with
      | some k => (s.fire k ct).note (.emit g ct)
      | none => s.note (.emit g ct)
    else s
  | .throwIf c b =>
    if s.runs c then
      { s with co := upd s.co c { s.co c with throwIf := b } }.note (.throwIf c b)
    else s
  -- detached.hpp:77: the frame is destroyed; the destructors of `state_` and `source_` do nothing
  | .ret c =>
    if s.runs c then { s with co := upd s.co c {} }.note (.ended c) else s

/-- Events one after the other, until memory is used that is gone. -/
def run (s : St) (es : List Ev) : St := es.foldl (fun s e => if s.ub then s else s.step e) s

end St
end Cobalt.Src
