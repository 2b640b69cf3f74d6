import Verif.Pipe.Model
/-!
# A network of coroutines connected by channels

Sources: `include/boost/cobalt/channel.hpp:30-206` and `include/boost/cobalt/impl/channel.hpp:34-323`, in the
model of `Verif.Chan.Model`.

There are any number of coroutines and of channels. A coroutine is any program that reads from channels, writes to
channels and closes them, one thing at a time; what it does next may depend on everything that happened to it so far.
The operations are temporaries, as in `co_await c.read()`, so they are destroyed as soon as the await ends. A failed
operation throws; the program may catch that and go on, so the failure is one of the things it can depend on.

Every channel has a coroutine that reads from it and one that writes to it; they may be the same.

Simplification: a coroutine that is resumed may wait before it begins its next operation; the code does not, so
its schedules are some of those of the model. Nobody cancels anything.
-/
namespace Cobalt.Net

/-- What a coroutine does next. -/
inductive Act where
  | read (c : Nat) | write (c v : Nat) | close (c : Nat)
  /-- nothing any more -/
  | stop
deriving DecidableEq, Repr

/-- What came of it (impl/channel.hpp:163-201 and 278-323). -/
inductive Res where
  | val (v : Nat) | ok | broken | aborted
deriving DecidableEq, Repr

/-- The programs, and who reads and who writes a channel. -/
structure Prog where
  act : Nat → List Res → Act
  rd : Nat → Nat
  wr : Nat → Nat

/-- Where a coroutine is. -/
inductive At where
  /-- about to go on -/
  | idle
  /-- it waits for read number `i` of channel `c` -/
  | reading (c i : Nat)
  /-- it waits for write number `j` of channel `c` -/
  | writing (c j : Nat)
deriving DecidableEq, Repr

structure St where
  ch : Nat → Chan.St
  /-- what the writes to a channel carry, by their numbers -/
  vals : Nat → List Nat := fun _ => []
  pos : Nat → At := fun _ => .idle
  /-- what came of the things a coroutine did -/
  hist : Nat → List Res := fun _ => []

/-- Channels with these limits. -/
def St.init (cap : Nat → Nat) : St := { ch := fun c => Chan.St.init (cap c) }

/-- The result of a read; the values are known by the numbers of their writes (impl/channel.hpp:163-201). -/
def ofR (vals : List Nat) : Chan.RRes → Res
  | .value w => .val (vals.getD w 0)
  | .aborted => .aborted
  | .brokenPipe => .broken

/-- The result of a write (impl/channel.hpp:278-323). -/
def ofW : Chan.WRes → Res
  | .ok => .ok
  | .aborted => .aborted
  | .brokenPipe => .broken

/-- The read coroutine `p` waits for, if it is one of channel `c`. -/
def At.rdOn (c : Nat) : At → Option Nat
  | .reading c' i => if c' = c then some i else none
  | _ => none

/-- The write coroutine `p` waits for, if it is one of channel `c`. -/
def At.wrOn (c : Nat) : At → Option Nat
  | .writing c' j => if c' = c then some j else none
  | _ => none

/-- The coroutine that reads from channel `c` goes on if its read has ended (impl/channel.hpp:163-201). -/
def St.settleR (N : Prog) (s : St) (c : Nat) : St :=
  match (s.pos (N.rd c)).rdOn c with
  | some i =>
    match Chan.resultOf (s.ch c).log i with
    | some r =>
      { s with ch := Chan.upd s.ch c ((s.ch c).step (.dropR i))
               hist := Chan.upd s.hist (N.rd c) (s.hist (N.rd c) ++ [ofR (s.vals c) r])
               pos := Chan.upd s.pos (N.rd c) .idle }
    | none => s
  | none => s

/-- The coroutine that writes to channel `c` goes on if its write has ended (impl/channel.hpp:278-323). -/
def St.settleW (N : Prog) (s : St) (c : Nat) : St :=
  match (s.pos (N.wr c)).wrOn c with
  | some j =>
    match Pipe.resultOfW (s.ch c).log j with
    | some r =>
      { s with ch := Chan.upd s.ch c ((s.ch c).step (.dropW j))
               hist := Chan.upd s.hist (N.wr c) (s.hist (N.wr c) ++ [ofW r])
               pos := Chan.upd s.pos (N.wr c) .idle }
    | none => s
  | none => s

/-- Something happens to channel `c`. -/
def St.on (N : Prog) (s : St) (c : Nat) (e : Chan.Ev) : St :=
  (St.settleR N { s with ch := Chan.upd s.ch c ((s.ch c).step e) } c).settleW N c

/-- Coroutine `p` does something. `close` (impl/channel.hpp:53-76) does not suspend. -/
def St.act (N : Prog) (s : St) (p : Nat) (conn : Bool) : Act → St
  | .read c =>
    St.on N { s with ch := Chan.upd s.ch c ((s.ch c).step .mkR)
                     pos := Chan.upd s.pos p (.reading c (s.ch c).nextR) } c (.awaitR (s.ch c).nextR conn false [])
  | .write c v =>
    St.on N { s with ch := Chan.upd s.ch c ((s.ch c).step .mkW), vals := Chan.upd s.vals c (s.vals c ++ [v])
                     pos := Chan.upd s.pos p (.writing c (s.ch c).nextW) } c (.awaitW (s.ch c).nextW conn false [])
  | .close c => St.on N { s with hist := Chan.upd s.hist p (s.hist p ++ [.ok]) } c .close
  | .stop => s

inductive Ev where
  /-- coroutine `p` goes on; `conn`: its cancellation slot is connected -/
  | go (p : Nat) (conn : Bool)
  /-- the executor runs the `k`-th of the resumptions posted for channel `c` -/
  | run (c k : Nat)
deriving DecidableEq, Repr

/-- Events that are not possible do nothing. -/
def St.step (N : Prog) (s : St) : Ev → St
  | .go p conn => if s.pos p = .idle then s.act N p conn (N.act p (s.hist p)) else s
  | .run c k => s.on N c (.run k)

/-- The network with limits `cap` after the events `es`. -/
def run (N : Prog) (cap : Nat → Nat) (es : List Ev) : St := es.foldl (St.step N) (St.init cap)

end Cobalt.Net
