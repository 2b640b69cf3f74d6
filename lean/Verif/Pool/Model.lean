import Verif.Chan.Model
/-!
# Model of a pool of workers around a channel

```
cobalt::task<void> worker(cobalt::channel<job> & ch)   { while (true) work(co_await ch.read()); }
cobalt::task<void> producer(cobalt::channel<job> & ch) { for (auto & j : jobs) co_await ch.write(std::move(j)); }
```

The channel is the model of `Verif/Chan/Model.lean` (include/boost/cobalt/channel.hpp:30-206,
include/boost/cobalt/impl/channel.hpp:34-323). Here are the coroutines that use it, all on one executor. One coroutine
runs at a time, and it runs until it is suspended: `cur`. When an operation of the channel resumes another coroutine by
symmetric transfer (impl/channel.hpp:141, 263) that one runs next; the one that was posted instead runs when the
executor gets to it. A coroutine may be suspended on something else between two operations (a job that takes time, a
producer that waits for the next job): `away`.

Simplified: an operation is a temporary of its `co_await` expression, so nothing is done with it once its coroutine has
been resumed; its destruction is left out as it is not in a queue then. Nobody is cancelled, interrupted or destroyed,
and nobody closes the channel.
-/
namespace Cobalt.Pool

open Chan (upd)

/-- A coroutine: the `i`-th worker or the `i`-th producer. -/
inductive Co where
  | w (i : Nat) | p (i : Nat)
deriving DecidableEq, Repr

structure St where
  ch : Chan.St
  /-- The coroutine that is running. -/
  cur : Option Co := none
  /-- Those suspended on something other than the channel. -/
  away : List Co := []
  /-- How many jobs a producer has still to write. -/
  todo : Nat → Nat := fun _ => 0
  /-- Whose read operation it is. -/
  ownR : Nat → Nat := fun _ => 0
  /-- Whose write operation it is. -/
  ownW : Nat → Nat := fun _ => 0
  /-- How many workers and producers have been started. -/
  nw : Nat := 0
  np : Nat := 0

/-- `channel<job> ch{cap}` (channel.hpp:38-42). -/
def St.init (cap : Nat) : St := { ch := Chan.St.init cap }

inductive Ev where
  /-- A worker is started. -/
  | worker
  /-- A producer with `n` jobs is started. -/
  | producer (n : Nat)
  /-- The running coroutine goes on to its next operation on the channel, or ends. -/
  | go
  /-- The running coroutine awaits something else. -/
  | leave
  /-- The `k`-th of those goes on. -/
  | back (k : Nat)
  /-- The executor runs the `k`-th posted resumption. -/
  | run (k : Nat)
deriving DecidableEq, Repr

/-- The coroutine whose operation has just ended goes on (impl/channel.hpp:98-142, 221-264: `await_suspend` resumes the
awaiter, somebody it found waiting, or nobody). -/
def St.next (s : St) (c : Chan.St) : Option Co :=
  match c.log.getLast? with
  | some (.doneR i _) => some (.w (s.ownR i))
  | some (.doneW i _) => some (.p (s.ownW i))
  | _ => none

/-- The running coroutine executes the next statement. -/
def St.goOn (s : St) : Co → St
  | .w i => -- co_await ch.read()
    let c := s.ch.steps [.mkR, .awaitR s.ch.nextR true false []]
    let s : St := { s with ownR := upd s.ownR s.ch.nextR i }
    { s with ch := c, cur := s.next c }
  | .p i =>
    if s.todo i = 0 then { s with cur := none }
    else -- co_await ch.write(job)
      let c := s.ch.steps [.mkW, .awaitW s.ch.nextW true false []]
      let s : St := { s with ownW := upd s.ownW s.ch.nextW i, todo := upd s.todo i (s.todo i - 1) }
      { s with ch := c, cur := s.next c }

def St.step (s : St) (e : Ev) : St :=
  if s.ch.ub then s
  else match e, s.cur with
    | .worker, none => { s with cur := some (.w s.nw), nw := s.nw + 1 }
    | .producer n, none => { s with cur := some (.p s.np), np := s.np + 1, todo := upd s.todo s.np n }
    | .go, some c => s.goOn c
    | .leave, some c => { s with cur := none, away := s.away ++ [c] }
    | .back k, none =>
      match s.away[k]? with
      | some c => { s with cur := some c, away := s.away.eraseIdx k }
      | none => s
    | .run k, none =>
      if k < s.ch.posted.length then
        let c := s.ch.step (.run k)
        { s with ch := c, cur := s.next c }
      else s
    | _, _ => s

def St.steps (s : St) (es : List Ev) : St := es.foldl St.step s

/-- The state after the events `es` around a new channel of limit `cap`. -/
def exec (cap : Nat) (es : List Ev) : St := (St.init cap).steps es

end Cobalt.Pool
