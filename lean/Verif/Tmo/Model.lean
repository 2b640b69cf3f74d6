import Verif.Comb.Model
/-!
# Model of a loop that races a read against a timer

```
for (;;)
  switch (auto r = co_await cobalt::race(<read>, timer.wait()); r.index()) ...
```

Sources: `include/boost/cobalt/detail/race.hpp` (through the model `Comb`, one `Comb.St` for
each round), `op.hpp:24-113` (operations of asio), `src/io/steady_timer.cpp:40-50`,
`src/io/read.cpp:16-33` and `io/ops.hpp` (a read that fills a buffer is a sequence of reads),
`detail/promise.hpp:170-259`. The use is the one of doc/design/race.adoc:42-48.

`<read>` is either the operation itself, made anew in every round, or (`kept`) a promise that runs
the operation, passed as an lvalue and made anew only after it gave its value.

Simplifications:
* The stream is a queue of messages that does not fail; the operation is done when it has taken
  `need` of them (`read_some`: `need = 1`; `io::read`: `deaf`).
* What asio does is an event: the system takes a message for a pending read (`take`), the timer
  expires (`expire`), the first handler that waits to be called is called (`run`). A read that is
  done is put behind the handlers that wait. (That the reactor of asio takes and calls the handler
  in one go if nothing else is done on the descriptor is a matter of which events happen, see
  `Props.lean`.)
* A cancellation of a pending operation of asio puts its handler into the queue with
  `operation_aborted`; one that is already in the queue is not changed.
-/
namespace Cobalt.Tmo
open Cobalt.Comb (Ev Out)

/-- An operation of asio: not running; pending; its handler waits to be called; `done`: the promise
has its value. -/
inductive Op where
  | off | pending | queued | done
deriving DecidableEq, Repr

/-- A handler that waits to be called; `ok` is false for `operation_aborted`. -/
inductive H where
  | read (ok : Bool)
  | timer (ok : Bool)
deriving DecidableEq, Repr

/-- What the race gave: the messages, or that it took too long. -/
inductive Res where
  | data (l : List Nat)
  | timeout
  | failed
deriving DecidableEq, Repr

structure Cfg where
  need : Nat := 1
  kept : Bool := false
  /-- the read is `io::read`, to which no cancellation comes through (C56) -/
  deaf : Bool := false
deriving DecidableEq, Repr

structure St where
  /-- messages that have arrived and have not been taken -/
  inp : List Nat := []
  /-- what the read has taken -/
  buf : List Nat := []
  rd : Op := .off
  tm : Op := .off
  queue : List H := []
  /-- the race of this round -/
  race : Option (Bool × Comb.St) := none
  out : List Res := []

/-- The arguments of the race: 0 is the read, 1 the wait, which gives nothing. `swap`: the wait is
started first. Operations of asio have no `interrupt_await`, a promise has. -/
def comb (c : Cfg) (swap : Bool) : Comb.Cfg where
  kind := .race
  n := 2
  order := if swap then [1, 0] else [0, 1]
  intr := fun i => c.kept && i == 0
  void := fun i => i == 1

namespace St

/-- The system takes messages for a pending read (`src/io/read.cpp:19-27`). -/
def take (c : Cfg) (s : St) : St :=
  match s.inp with
  | [] => s
  | m :: rest =>
    if s.rd = .pending then
      let s : St := { s with inp := rest, buf := s.buf ++ [m] }
      if c.need ≤ s.buf.length then { s with rd := .queued, queue := s.queue ++ [.read true] } else s
    else s

/-- A cancellation is sent to operation `i` (`detail/handler.hpp:99-104, 164` gives asio the slot;
`composition.hpp` does not pass it on). -/
def cancel (c : Cfg) (s : St) (i : Nat) : St :=
  if i = 0 then if s.rd = .pending ∧ c.deaf = false then { s with rd := .queued, queue := s.queue ++ [.read false] } else s
  else if s.tm = .pending then { s with tm := .queued, queue := s.queue ++ [.timer false] } else s

/-- What is awaited answers the innermost call that the race has made. `imm`: the system has what the
read needs and asio completes it while it is initiated (`op.hpp:58-84`); `exp`: the timer has expired
(`steady_timer.cpp:45-50`). -/
def answer (c : Cfg) (imm exp d : Bool) (s : St) (cs : Comb.St) : St × Option Ev :=
  match cs.stack with
  | [] => (s, none)
  | .asking i :: _ =>
    if i = 0 then
      if c.kept then if s.rd = .done then (s, some (.ready 0 (.ok 0) d)) else (s, some (.notReady 0))
      else ({ s with rd := .pending }, some (.notReady 0))
    else if exp then (s, some (.ready 1 (.ok 0) d)) else ({ s with tm := .pending }, some (.notReady 1))
  | .starting i :: _ =>
    if i = 0 ∧ !c.kept ∧ imm ∧ s.rd = .pending ∧ cs.child 0 = .waiting ∧ c.need ≤ s.inp.length then
      ({ s with rd := .off, inp := s.inp.drop c.need, buf := s.inp.take c.need }, some (.fin 0 (.ok 0)))
    else (s, some (.ret d))
  | .intr _ _ _ :: _ =>
    -- promise.hpp:252-259
    if cs.child 0 = .waiting then (s, some (.fin 0 (.err 0))) else (s, some (.ret d))
  | .emit i _ _ _ :: _ => (cancel c s i, some (.ret d))

/-- The race runs until it does not call anything. -/
def drive (c : Cfg) (imm exp d : Bool) (k : Comb.Cfg) : Nat → St → Comb.St → St × Comb.St
  | 0, s, cs => (s, cs)
  | n + 1, s, cs =>
    match answer c imm exp d s cs with
    | (s, none) => (s, cs)
    | (s, some e) => drive c imm exp d k n s (cs.step k e)

/-- The longest chain of calls has 12 (`Inv.lean`). -/
def fuel : Nat := 16

/-- The awaiting coroutine goes on if the race is over. -/
def settle (c : Cfg) (swap : Bool) (s : St) (cs : Comb.St) : St :=
  if cs.phase = .resumed ∨ cs.phase = .direct then
    match cs.resume (comb c swap) with
    | .winner 0 _ => { s with race := none, out := s.out ++ [.data s.buf], buf := [], rd := .off, tm := .off }
    | .winner _ _ =>
      -- the program does not know what the operation has read; the promise is kept
      if c.kept then { s with race := none, out := s.out ++ [.timeout], tm := .off }
      else { s with race := none, out := s.out ++ [.timeout], buf := [], rd := .off, tm := .off }
    | _ => { s with race := none, out := s.out ++ [.failed] }
  else { s with race := some (swap, cs) }

/-- The race is told. -/
def feed (c : Cfg) (imm exp d : Bool) (swap : Bool) (s : St) (cs : Comb.St) (e : Ev) : St :=
  let r := drive c imm exp d (comb c swap) fuel s (cs.step (comb c swap) e)
  settle c swap r.1 r.2

end St

inductive E where
  /-- a message arrives -/
  | arrive (m : Nat)
  /-- the loop awaits the next race: the order that was drawn, whether the read completes while it is
  initiated and whether the timer has expired; `d`: see `Comb.Ev` -/
  | go (swap imm exp d : Bool)
  | take
  | expire
  | run
deriving DecidableEq, Repr

namespace St

def step (c : Cfg) (s : St) (e : E) : St :=
  match e with
  | .arrive m => { s with inp := s.inp ++ [m] }
  | .go swap imm exp d =>
    match s.race with
    | some _ => s
    | none =>
      -- a promise starts its coroutine when it is made (promise.hpp, eager)
      let s : St := if c.kept ∧ s.rd = .off then
          if imm ∧ c.need ≤ s.inp.length then
            { s with rd := .done, inp := s.inp.drop c.need, buf := s.inp.take c.need }
          else { s with rd := .pending }
        else s
      feed c imm exp d swap s {} .begin
  | .take => take c s
  | .expire => if s.tm = .pending then { s with tm := .queued, queue := s.queue ++ [.timer true] } else s
  | .run =>
    match s.queue with
    | [] => s
    | .read ok :: rest =>
      let s : St := { s with queue := rest, rd := if c.kept then .done else .off }
      match s.race with
      | some (swap, cs) =>
        if cs.child 0 = .waiting then
          feed c false false false swap s cs (.fin 0 (if ok then .ok 0 else .err 1))
        else s
      | none => s
    | .timer ok :: rest =>
      let s : St := { s with queue := rest, tm := .off }
      match s.race with
      | some (swap, cs) =>
        if cs.child 1 = .waiting then
          feed c false false false swap s cs (.fin 1 (if ok then .ok 0 else .err 1))
        else s
      | none => s

def exec (c : Cfg) (es : List E) : St := es.foldl (step c) {}

end St
end Cobalt.Tmo
