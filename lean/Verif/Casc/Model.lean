import Verif.Cst.Model
/-!
# Model of cancellation through chains of awaits

Sources: the awaitables of promises (`detail/promise.hpp:171-265`), tasks
(`detail/task.hpp:157-238`) and generators (`detail/generator.hpp:179-328`),
`detail/forward_cancellation.hpp`, `this_coro.hpp:90-158`.

A coroutine that waits for another puts a `forward_cancellation` into the slot of its own
cancellation state; it holds a reference to the signal in the frame of the other. Cancellations
follow these references.

Simplifications: cancellation states as in `Verif.Cst.Model`; every coroutine has a connected
source, the signal in its promise. Operations put a handler into the slot and take it out
when they complete, as those of asio do. An object is not moved or destroyed while it is awaited
(see C25), nor are coroutines destroyed that wait. Combinators (see C21) and compositions
(see C56) are not part of the chains.
-/
namespace Cobalt.Casc
open Cobalt.Cst (CT Filter)

/-- What a coroutine can wait for, and what a handler in a slot refers to. -/
inductive Tgt where
  | coro (c : Nat)
  | op (k : Nat)
deriving DecidableEq, Repr

structure Coro where
  alive : Bool := false
  /-- a generator: can yield -/
  gen : Bool := false
  /-- the filters of `state_` -/
  inF : Filter := Cst.enableTotal
  outF : Filter := Cst.enableTotal
  cancelled : CT := .none_
  /-- the handler in `state_.slot()` -/
  slot : Option Tgt := none
  /-- `awaited_from` of its receiver -/
  awaitedFrom : Option Nat := none
  /-- ghost: what it waits for, `none` if it runs or has yielded -/
  waits : Option Tgt := none

structure St where
  co : Nat → Coro := fun _ => {}
  next : Nat := 0
  /-- what operations were told: number and type -/
  got : List (Nat × CT) := []
  /-- a signal was used whose frame is gone -/
  ub : Bool := false

def St.set (s : St) (i : Nat) (f : Coro → Coro) : St :=
  { s with co := fun j => if j = i then f (s.co j) else s.co j }

/-- `signal.emit(ct)` on the signal of coroutine `r`: the handler of the `cancellation_state`, and
what is in its slot (forward_cancellation.hpp:32-41). `depth` bounds the recursion, since
coroutines which wait for each other in a circle would never end it. -/
def St.emit (s : St) (depth : Nat) (r : Nat) (ct : CT) : St :=
  match depth with
  | 0 => s
  | depth + 1 =>
    if !(s.co r).alive then { s with ub := true }
    else
      let c := (s.co r).inF ct
      let o := (s.co r).outF c
      let s' := s.set r fun x => { x with cancelled := c }
      if o = .none_ then s'
      else
        match (s.co r).slot with
        | none => s'
        | some (.op k) => { s' with got := s'.got ++ [(k, o)] }
        | some (.coro c) => s'.emit depth c o

inductive Ev where
  /-- a coroutine is called; a generator or not -/
  | call (gen : Bool)
  /-- `p` awaits `c` -/
  | await (p c : Nat)
  /-- `p` awaits operation `k` -/
  | awaitOp (p k : Nat)
  /-- the operation `p` waits for completes -/
  | opEnds (p : Nat)
  /-- `c` ends; its frame is destroyed by `self_destroy` (detail/util.hpp:141-145), and the
  destructor of one of its parameters may cancel some coroutine -/
  | ret (c : Nat) (dtor : Option (Nat × CT × Nat))
  /-- the generator `c` yields -/
  | yield (c : Nat)
  /-- the await of `p` is interrupted -/
  | interrupt (p : Nat)
  /-- `p` resets its cancellation state -/
  | reset (p : Nat) (inF outF : Filter)
  /-- someone cancels `r` -/
  | cancel (r : Nat) (ct : CT) (depth : Nat)

/-- It runs, or could. -/
def St.runs (s : St) (p : Nat) : Bool := (s.co p).alive && (s.co p).waits.isNone

/-- The awaiter is resumed: `await_resume` clears the slot (promise.hpp:214-215, 223-224, 232-233,
task.hpp:199-200, 207-208, 214-215, generator.hpp:269-270). -/
def St.resumed (s : St) (p : Option Nat) : St :=
  match p with
  | some p => s.set p fun x => { x with slot := none, waits := none }
  | none => s

/-- The promise of `c` is destroyed. -/
def St.kill (s : St) (c : Nat) : St :=
  s.set c fun x => { x with alive := false, awaitedFrom := none }

/-- Someone may cancel a coroutine, as the destructor of a parameter. The owner has no access to the signal of a coroutine which has
ended. -/
def St.dtor (s : St) : Option (Nat × CT × Nat) → St
  | some (r, ct, depth) => if (s.co r).alive then s.emit depth r ct else s
  | none => s

/-- One event. What is not possible does nothing. -/
def St.step (s : St) : Ev → St
  | .call gen =>
    { s with co := fun j => if j = s.next then { alive := true, gen := gen } else s.co j
             next := s.next + 1 }
  -- promise.hpp:190-210, task.hpp:176-195, generator.hpp:206-223
  | .await p c =>
    if s.runs p && (s.co c).alive && (s.co c).awaitedFrom.isNone && p ≠ c then
      (s.set p fun x => { x with slot := some (.coro c), waits := some (.coro c) }).set c
        fun x => { x with awaitedFrom := some p }
    else s
  | .awaitOp p k =>
    if s.runs p then
      s.set p fun x => { x with slot := some (.op k), waits := some (.op k) }
    else s
  | .opEnds p =>
    match (s.co p).waits with
    | some (.op _) => s.resumed (some p)
    | _ => s
  -- promise.hpp:384-400, task.hpp:358-375, generator.hpp:393-412: the frame is destroyed, the
  -- signal in its promise before the parameters, and only then the awaiter resumed
  | .ret c dtor =>
    if s.runs c then
      ((s.kill c).dtor dtor).resumed (s.co c).awaitedFrom
    else s
  | .yield c =>
    if s.runs c && (s.co c).gen then
      (s.set c fun x => { x with awaitedFrom := none }).resumed (s.co c).awaitedFrom
    else s
  -- promise.hpp:252-259, task.hpp:229-236, generator.hpp:319-327
  | .interrupt p =>
    match (s.co p).waits with
    | some (.coro c) => (s.set c fun x => { x with awaitedFrom := none }).resumed (some p)
    | _ => s
  -- this_coro.hpp:113-137
  | .reset p inF outF =>
    if s.runs p then
      s.set p fun x => { x with inF := inF, outF := outF, cancelled := .none_, slot := none }
    else s
  | .cancel r ct depth => s.dtor (some (r, ct, depth))

def St.run (s : St) (es : List Ev) : St := es.foldl St.step s

end Cobalt.Casc
