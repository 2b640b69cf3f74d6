import Verif.Chan.Model
/-!
# Model of a pool of objects kept in a `channel<T>`

```
cobalt::channel<connection> pool{n};
...
co_await pool.write(connection(...));       // at most n of them are made
...
auto c = co_await pool.read();              // take one
...
co_await pool.write(std::move(c));          // bring it back
```

The channel is the model of `Verif/Chan/Model.lean` (include/boost/cobalt/channel.hpp:30-206,
include/boost/cobalt/impl/channel.hpp:34-323). Here are the coroutines that use it: each has
nothing, waits for an object, has an object, or waits to bring it back.

Simplified: an operation is a temporary of its `co_await` expression, so nothing is done with it once
its coroutine has been resumed. The coroutines may be cancelled (asio::cancellation_slot) but are
not in a race, and nobody closes the channel. Objects are numbers. Which object a write carries is
`obj`.
-/
namespace Cobalt.Objs

open Chan (Status Tok Obs)

/-- Where a coroutine is. `wait j`: suspended on read `j`; `back i o`: suspended on write `i`. -/
inductive Phase where
  | out | wait (j : Nat) | has (o : Nat) | back (i o : Nat)
deriving DecidableEq, Repr

structure St where
  ch : Chan.St
  /-- How many objects have been made. -/
  made : Nat := 0
  /-- The object of a write. -/
  obj : Nat → Nat := fun _ => 0
  ph : Nat → Phase := fun _ => .out

/-- `channel<T> pool{n}` -/
def St.init (n : Nat) : St := { ch := Chan.St.init n }

inductive Ev where
  /-- Coroutine `u` makes an object. -/
  | make (u : Nat)
  /-- Coroutine `u` executes `co_await pool.read()`; `conn`: its cancellation slot is connected. -/
  | take (u : Nat) (conn : Bool)
  /-- Coroutine `u` executes `co_await pool.write(std::move(c))`. -/
  | bring (u : Nat) (conn : Bool)
  /-- The executor runs the `k`-th posted resumption. -/
  | run (k : Nat)
  /-- Coroutine `u` is cancelled. -/
  | cancel (u : Nat)
deriving DecidableEq, Repr

/-- What happens to the channel. -/
def St.events (s : St) : Ev → List Chan.Ev
  | .make _ => []
  | .take u conn =>
    match s.ph u with
    | .out => [.mkR, .awaitR s.ch.nextR conn false []]
    | _ => []
  | .bring u conn =>
    match s.ph u with
    | .has _ => [.mkW, .awaitW s.ch.nextW conn false []]
    | _ => []
  | .run k => [.run k]
  | .cancel u =>
    match s.ph u with
    | .wait j => [.cancelR j]
    | .back i _ => [.cancelW i]
    | _ => []

/-- A coroutine may make an object: fewer than the limit have been made. -/
def St.may (s : St) (u : Nat) : Bool := s.ph u == .out && decide (s.made < s.ch.cap)

/-- Coroutine `u` has a new object, or is now suspended on its new operation. -/
def St.phase (s : St) : Ev → Nat → Phase
  | .make u, v => if v = u ∧ s.may u = true then .has s.made else s.ph v
  | .take u _, v => if v = u ∧ s.ph u = .out then .wait s.ch.nextR else s.ph v
  | .bring u _, v =>
    if v = u then
      match s.ph u with
      | .has o => .back s.ch.nextW o
      | p => p
    else s.ph v
  | _, v => s.ph v

/-- … the write that takes it there -/
def St.carry (s : St) : Ev → Nat → Nat
  | .bring u _, w =>
    match s.ph u with
    | .has o => if w = s.ch.nextW then o else s.obj w
    | _ => s.obj w
  | _, w => s.obj w

/-- The write whose value a read got. -/
def got (log : List Obs) (j : Nat) : Option Nat :=
  log.findSome? fun
    | .doneR i (.value w) => if i = j then some w else none
    | _ => none

/-- … and goes on when the operation is over: an operation that failed leaves it where it was. -/
def goOn (ch : Chan.St) (obj : Nat → Nat) : Phase → Phase
  | .wait j =>
    if (ch.R j).status = .done then
      match got ch.log j with
      | some w => .has (obj w)
      | none => .out
    else .wait j
  | .back i o =>
    if (ch.W i).status = .done then if Obs.doneW i .ok ∈ ch.log then .out else .has o else .back i o
  | p => p

def St.step (s : St) (e : Ev) : St :=
  { ch := s.ch.steps (s.events e)
    made := match e with
      | .make u => if s.may u then s.made + 1 else s.made
      | _ => s.made
    obj := s.carry e
    ph := fun v => goOn (s.ch.steps (s.events e)) (s.carry e) (s.phase e v) }

def St.steps (s : St) (es : List Ev) : St := es.foldl St.step s

/-- The state after the events `es` on a new channel with limit `n`. -/
def exec (n : Nat) (es : List Ev) : St := (St.init n).steps es

end Cobalt.Objs
