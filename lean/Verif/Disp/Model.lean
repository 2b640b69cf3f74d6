import Verif.Comb.Model
import Verif.Gen.Model
import Verif.Chan.RaceModel
/-!
# Model of a loop that races a generator against a channel

```
while (ws.is_open())
  switch (auto msg = co_await cobalt::race(rd, subc.read()); msg.index()) ...
```

This is the dispatcher of doc/tutorial/ticker.adoc (`run_blockchain_info`, example/ticker.cpp:180-201): `rd` is
a generator of messages, `subc` a channel into which sessions write their subscriptions.

Sources: `include/boost/cobalt/detail/race.hpp` (through the model `Comb`, one `Comb.St` for each round),
`detail/generator.hpp` (through the model `Gen`), `impl/channel.hpp` (through the model `Chan`).

Simplifications:
* The generator goes on yielding: it does not return or throw. It does not await `initial`; its `Push` is
  `void`. The channel is not closed; the loop is not cancelled. Sessions may be cancelled.
* A session that is resumed by the read, in `await_suspend` (impl/channel.hpp:135-140), goes on after the race has
  started its awaitables, not in between.
* Every subscription is written by an operation of its own; its number stands for the subscription.
-/
namespace Cobalt.Disp
open Cobalt.Comb (Ev Out)

/-- What the loop is given. -/
inductive Res where
  | msg (m : Nat)
  | sub (w : Nat)
  | failed
deriving DecidableEq, Repr

structure St where
  gen : Gen.St := { void := true }
  ch : Chan.St
  /-- the read operation of this round -/
  rd : Nat := 0
  round : Nat := 0
  /-- the race of this round -/
  race : Option (Bool × Comb.St) := none
  out : List Res := []
  /-- what the generator has yielded -/
  yields : List Nat := []

/-- The arguments of the race: 0 is the generator, 1 the read. `swap`: the read is started first. -/
def comb (swap : Bool) : Comb.Cfg where
  kind := .race
  n := 2
  order := if swap then [1, 0] else [0, 1]

/-- The outcome of a read for the race (impl/channel.hpp:163-201). -/
def resOut : Chan.RRes → Out
  | .value w => .ok w
  | .aborted => .err 1
  | .brokenPipe => .err 2

/-- This is the end of read `i`. -/
def endOf (i : Nat) : Chan.Obs → Option Out
  | .doneR j r => if j = i then some (resOut r) else none
  | _ => none

/-- How the await of read `i` has ended. -/
def readOut (ch : Chan.St) (i : Nat) : Option Out := ch.log.findSome? (endOf i)

/-- What a generator has handed over when it has gone from `g` to `g'`. -/
def genOut (g g' : Gen.St) : Option Out :=
  if g.log.length < g'.log.length then
    match g'.log with
    | (_, .val v) :: _ => some (.ok v)
    | (_, .err _) :: _ => some (.err 0)
    | [] => none
  else none

namespace St

/-- What is awaited answers the innermost call that the race has made. -/
def answer (d : Bool) (s : St) (cs : Comb.St) : St × Option Ev :=
  match cs.stack with
  | [] => (s, none)
  | .asking i :: _ =>
    if i = 0 then
      -- detail/generator.hpp:200-250, 267-318
      let g := s.gen.await s.round 0
      match genOut s.gen g with
      | some o => ({ s with gen := g }, some (.ready 0 o d))
      | none => ({ s with gen := g }, some (.notReady 0))
    else if s.ch.readReady then
      let ch := s.ch.step (.awaitR s.rd true true [])
      match readOut ch s.rd with
      | some o => ({ s with ch := ch }, some (.ready 1 o d))
      | none => ({ s with ch := ch }, none)
    else (s, some (.notReady 1))
  | .starting i :: _ =>
    if i = 0 then (s, some (.ret d))
    -- impl/channel.hpp:98-142
    else ({ s with ch := s.ch.step (.awaitR s.rd true true []) }, some (.ret d))
  | .intr i _ _ :: _ =>
    if cs.child i = .waiting then
      if i = 0 then
        -- detail/generator.hpp:320-328
        let g := s.gen.interrupt s.round
        match genOut s.gen g with
        | some o => ({ s with gen := g }, some (.fin 0 o))
        | none => ({ s with gen := g }, some (.ret d))
      else if cs.inTxn 1 then (s, some (.ret d)) -- `direct` is set (channel.hpp:90)
      else
        -- channel.hpp:88-96
        let ch := s.ch.step (.intR s.rd)
        match readOut ch s.rd with
        | some o => ({ s with ch := ch }, some (.fin 1 o))
        | none => ({ s with ch := ch }, some (.ret d))
    else (s, some (.ret d))
  | .emit i _ _ _ :: _ =>
    -- impl/channel.hpp:80-94
    if i = 0 then (s, some (.ret d)) else ({ s with ch := s.ch.step (.cancelR s.rd) }, some (.ret d))

/-- The race runs until it does not call anything. -/
def drive (d : Bool) (k : Comb.Cfg) : Nat → St → Comb.St → St × Comb.St
  | 0, s, cs => (s, cs)
  | n + 1, s, cs =>
    match answer d s cs with
    | (s, none) => (s, cs)
    | (s, some e) => drive d k n s (cs.step k e)

/-- The longest chain of calls has 12. -/
def fuel : Nat := 16

/-- The loop goes on if the race is over; the read is destroyed. -/
def settle (swap : Bool) (s : St) (cs : Comb.St) : St :=
  if cs.phase = .resumed ∨ cs.phase = .direct then
    { s with
      race := none, ch := s.ch.step (.dropR s.rd)
      out := s.out ++ [match cs.resume (comb swap) with
        | .winner 0 (some m) => .msg m
        | .winner _ (some w) => .sub w
        | _ => .failed] }
  else { s with race := some (swap, cs) }

/-- The race is told. -/
def feed (d swap : Bool) (s : St) (cs : Comb.St) (e : Ev) : St :=
  let r := drive d (comb swap) fuel s (cs.step (comb swap) e)
  settle swap r.1 r.2

end St

inductive E where
  /-- the loop awaits the next race: the order that was drawn; `d`: see `Comb.Ev` -/
  | go (swap d : Bool)
  /-- the coroutine of the generator yields a message -/
  | yield (m : Nat)
  /-- the executor resumes it (detail/generator.hpp:306-313) -/
  | resume
  /-- a session writes a subscription -/
  | sub
  /-- the session is cancelled -/
  | cancel (w : Nat)
  /-- the executor runs the `k`-th resumption the channel has posted -/
  | run (k : Nat)
deriving DecidableEq, Repr

namespace St

/-- Something happened in the channel; the race is told if its read has ended. -/
def chan (s : St) (ch : Chan.St) : St :=
  let s : St := { s with ch := ch }
  match s.race with
  | none => s
  | some (swap, cs) =>
    if cs.child 1 = .waiting then
      match readOut ch s.rd with
      | some o => feed false swap s cs (.fin 1 o)
      | none => s
    else s

def step (s : St) (e : E) : St :=
  match e with
  | .go swap d =>
    match s.race with
    | some _ => s
    | none => feed d swap { s with round := s.round + 1, rd := s.ch.nextR, ch := s.ch.step .mkR } {} .begin
  | .yield m =>
    if s.gen.phase = .running then
      let g := s.gen.step (.yield m)
      let s' : St := { s with gen := g, yields := s.yields ++ [m] }
      match genOut s.gen g, s.race with
      | some o, some (swap, cs) => feed false swap s' cs (.fin 0 o)
      | _, _ => s'
    else s
  | .resume => { s with gen := s.gen.step .run }
  | .sub =>
    let w := s.ch.nextW
    let ch := s.ch.step .mkW
    match s.race with
    | none => { s with ch := ch.step (.awaitW w true false []) }
    | some (swap, cs) =>
      if ch.finds (.awaitW w true false []) = some (.r s.rd) then
        -- impl/channel.hpp:241-263: a transaction begins
        let r := drive false (comb swap) fuel s (cs.step (comb swap) (.txn 1))
        chan { r.1 with race := some (swap, r.2) } (ch.step (.awaitW w true false [.r s.rd]))
      else chan s (ch.step (.awaitW w true false []))
  | .cancel w => { s with ch := s.ch.step (.cancelW w) }
  | .run k => chan s (s.ch.step (.run k))

def exec (cap : Nat) (es : List E) : St := es.foldl step { ch := Chan.St.init cap }

end St
end Cobalt.Disp
