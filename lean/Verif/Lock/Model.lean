import Verif.VChan.Model
/-!
# Model of users of a `channel<void>` as a semaphore

```
cobalt::channel<void> sem{k};
...
co_await sem.write();   // come in
...
co_await sem.read();    // leave
```

The channel is the model of `Verif/VChan/Model.lean` (include/boost/cobalt/channel.hpp:209-321,
include/boost/cobalt/impl/channel.hpp:326-426, src/channel.cpp). Here are the coroutines that use it: each is outside,
waits to come in, is inside, or waits to leave. A coroutine goes on as soon as its operation has resumed it.

Simplified: an operation is a temporary of its `co_await` expression, so nothing is done with it once its coroutine has
been resumed. Nobody closes the channel. The coroutines may be cancelled (asio::cancellation_slot), and they may give up:

```
switch ((co_await cobalt::race(sem.write(), timer.wait())).index()) ...
```

The timer that wins interrupts the write (detail/race.hpp:135-149, 274), and the write is destroyed when the race is over, that
is when it has been resumed. Simplified: of the race only this is modelled; that it goes on once, with the outcome of the
write if this was first, are C13 and C18.
-/
namespace Cobalt.Lock

open Chan (Status Tok)

/-- Where a coroutine is. `wait i`: suspended on write `i`; `leave j`: suspended on read `j`. -/
inductive Phase where
  | out | wait (i : Nat) | inside | leave (j : Nat)
deriving DecidableEq, Repr

structure St where
  /-- The channel. -/
  ch : VChan.St
  /-- How many coroutines there are. -/
  users : Nat
  ph : Nat → Phase := fun _ => .out

/-- `channel<void> sem{k}` (channel.hpp:212-215). -/
def St.init (k : BitVec 64) (users : Nat) : St := { ch := VChan.St.init k, users }

inductive Ev where
  /-- Coroutine `u` executes `co_await sem.write()`; `conn`: its cancellation slot is connected. -/
  | acquire (u : Nat) (conn : Bool)
  /-- Coroutine `u` executes `co_await sem.read()`. -/
  | release (u : Nat) (conn : Bool)
  /-- The executor runs the `k`-th posted resumption. -/
  | run (k : Nat)
  /-- Coroutine `u` is cancelled. -/
  | cancel (u : Nat)
  /-- The timer of coroutine `u`, which waits for the semaphore and for the timer, has expired. -/
  | timeout (u : Nat)
deriving DecidableEq, Repr

/-- What happens to the channel. -/
def St.events (s : St) : Ev → List VChan.Ev
  | .acquire u conn =>
    if u < s.users ∧ s.ph u = .out then [.mkW, .awaitW s.ch.nextW conn false []] else []
  | .release u conn =>
    if u < s.users ∧ s.ph u = .inside then [.mkR, .awaitR s.ch.nextR conn false []] else []
  | .run k => [.run k]
  | .cancel u => match s.ph u with
    | .wait i => [.cancelW i]
    | .leave j => [.cancelR j]
    | _ => []
  | .timeout u => match s.ph u with
    | .wait i => [.intW i, .dropW i]
    | _ => []

/-- Coroutine `u` is now suspended on its new operation. -/
def St.phase (s : St) : Ev → Nat → Phase
  | .acquire u _ => if u < s.users ∧ s.ph u = .out then fun v => if v = u then .wait s.ch.nextW else s.ph v else s.ph
  | .release u _ => if u < s.users ∧ s.ph u = .inside then fun v => if v = u then .leave s.ch.nextR else s.ph v else s.ph
  | _ => s.ph

/-- … and goes on when the operation is over: an operation that failed leaves it where it was. -/
def goOn (ch : VChan.St) : Phase → Phase
  | .wait i =>
    if (ch.W i).status = .done ∨ (ch.W i).status = .gone then
      if VChan.Obs.doneW i .ok ∈ ch.log then .inside else .out
    else .wait i
  | .leave j =>
    if (ch.R j).status = .done then if VChan.Obs.doneR j .ok ∈ ch.log then .out else .inside else .leave j
  | p => p

def St.step (s : St) (e : Ev) : St :=
  let ch := s.ch.steps (s.events e)
  { s with ch, ph := fun v => goOn ch (s.phase e v) }

def St.steps (s : St) (es : List Ev) : St := es.foldl St.step s

/-- The state after the events `es` with `users` coroutines and a new channel of limit `k`. -/
def exec (k : BitVec 64) (users : Nat) (es : List Ev) : St := (St.init k users).steps es

end Cobalt.Lock
