import Verif.Chan.Model
/-!
# Model of the program of `example/channel.cpp`

A producer (`example/channel.cpp`:17-23) writes `n` values to a channel and closes it; `co_main` (25-35) starts the producer,
a promise, so that it runs at once up to its first suspension, and then reads while the channel is open. The example has
`n = 4` and a channel without a buffer; here `n` and the limit are arbitrary. Everything runs on one executor that runs what
is posted in order. The channel is the model `Chan`, its writes are numbered, and the number is the value.

With `drain` the consumer does not test `is_open()` but reads until a read throws.

Simplifications: the operations are not destroyed (destroying one that has ended changes nothing in the channel,
`Chan.St.dropR`); the writes of the producer come before its own `close`, so that none of them fails; `co_await p` at the end
of `co_main` is not modelled.
-/
namespace Cobalt.Loop
open Cobalt.Chan (Ev Obs RRes)

/-- Who runs. -/
inductive Turn where
  /-- the producer, about to write or to close -/
  | prod
  /-- the consumer, about to test and to read -/
  | cons
  /-- nobody: the start of `co_main` or the next posted resumption -/
  | exec
  /-- the loop of the consumer has been left because the channel is closed -/
  | finished
  /-- a read has thrown in the consumer -/
  | thrown
  /-- nothing can run any more, the consumer still waits -/
  | stuck
deriving DecidableEq, Repr

structure St where
  s : Chan.St
  /-- how many values the producer writes -/
  n : Nat
  drain : Bool
  /-- writes that are done -/
  k : Nat := 0
  turn : Turn := .prod
  /-- `co_main` has gone on after starting the producer -/
  started : Bool := false
  /-- what the consumer has printed -/
  seen : List Nat := []

/-- The program before line 27. -/
def St.init (cap n : Nat) (drain : Bool) : St := { s := Chan.St.init cap, n, drain }

/-- What a coroutine sees of its operation: it goes on, with the value of a read or with an exception. -/
def St.note (x : St) : Obs → St
  | .doneR _ (.value v) => { x with seen := x.seen ++ [v], turn := .cons }
  | .doneR _ _ => { x with turn := .thrown }
  | .doneW _ _ => { x with k := x.k + 1, turn := .prod }
  | _ => x

/-- Something happened to the channel: the coroutine whose operation ended in it, if any, runs next. -/
def St.after (x : St) (s : Chan.St) : St :=
  (s.log.drop x.s.log.length).foldl St.note { x with s, turn := .exec }

/-- `co_await chan.write(i)` (example/channel.cpp:20). -/
def St.write (x : St) : St := x.after ((x.s.step .mkW).step (.awaitW x.s.nextW true false []))

/-- `co_await c.read()` (example/channel.cpp:31). -/
def St.read (x : St) : St := x.after ((x.s.step .mkR).step (.awaitR x.s.nextR true false []))

/-- One step of whoever runs. -/
def St.step (x : St) : St :=
  match x.turn with
  | .prod => if x.k < x.n then x.write else { x with s := x.s.step .close, turn := .exec }
  | .cons => if x.s.closed && !x.drain then { x with turn := .finished } else x.read
  | .exec =>
    if x.started then
      match x.s.posted with
      | [] => { x with turn := .stuck }
      | _ :: _ => x.after (x.s.step (.run 0))
    else { x with started := true, turn := .cons }
  | _ => x

/-- The program after `j` steps. -/
def run (cap n : Nat) (drain : Bool) : Nat → St
  | 0 => St.init cap n drain
  | j + 1 => (run cap n drain j).step

end Cobalt.Loop
