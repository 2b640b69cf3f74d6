import Verif.Prom.Spec
/-!
# Model of `BOOST_COBALT_FOR(v, promise)`

Sources: `include/boost/cobalt/async_for.hpp:11-16`,
`include/boost/cobalt/promise.hpp:126-129` and the sources of `Prom/Model.lean`.

The loop is `for (auto && id = expression; id; ) if (v = co_await id; false) {} else body`:
test `operator bool`, await the promise, run the body of the loop with the value. An await
that fails throws, which leaves the loop. `break` and `return` leave it too. The body of the
loop is not modelled beyond its argument; while it runs anything else may happen. The loop is
the only one to use its promise, at `r`, except that it may be detached, attached and
cancelled.
-/
namespace Cobalt.Prom.For

/-- Where the loop is: about to test `operator bool`, or in the body before; waiting in await
`a`; ended because the test failed; left by an exception; left by `break`; destroyed while it
waited. `some none`: the body ran with a moved-from value. -/
inductive Phase where
  | head | waiting (a : Nat) | finished | thrown (e : Err) | broken | destroyed
deriving DecidableEq, Repr

structure St where
  s : Prom.St
  phase : Phase := .head
  /-- the values the body of the loop ran with, in order; `none` is a moved-from value -/
  seen : List (Option Nat) := []

namespace St

/-- If the await has ended the loop goes on: `v = co_await id` and the body, or the
exception. -/
def advance (l : St) : St :=
  match l.phase with
  | .waiting a =>
    if a ∈ l.s.killed then { l with phase := .destroyed } else
    match (l.s.aw a).bind (·.got) with
    | some (.val v) => { l with phase := .head, seen := l.seen ++ [some v] }
    | some .moved => { l with phase := .head, seen := l.seen ++ [none] }
    | some (.err e) => { l with phase := .thrown e }
    | none => l
  | _ => l

/-- `operator bool` of the promise at `r`. -/
def test (l : St) (r : Nat) : Bool :=
  match l.s.recv r with
  | some R => R.toBool
  | none => false

/-- One test of `operator bool` and, if it holds, the start of `co_await id`
(async_for.hpp:12-13), await number `a`. -/
def turn (l : St) (r a : Nat) : St :=
  if l.test r then { l with s := l.s.step (.await a r), phase := .waiting a }.advance
  else { l with phase := .finished }

end St

inductive Ev where
  | turn (a : Nat)
  | leave
  /-- of anybody else -/
  | other (e : Prom.Ev)
deriving DecidableEq, Repr

/-- The event does not use the promise at `r` as only the loop may. -/
def apart (r : Nat) : Prom.Ev → Bool
  | .await _ r' | .get r' | .leave r' | .drop r' | .moveC r' _ => r' != r
  | .moveA r' r'' => r' != r && r'' != r
  | _ => true

/-- Which events are possible. -/
def St.can (l : St) (r : Nat) : Ev → Bool
  | .turn a => l.phase == .head && l.s.can (.await a r)
  | .leave => l.phase == .head
  | .other e => apart r e && l.s.can e

namespace St

def step (l : St) (r : Nat) (e : Ev) : St :=
  if !l.can r e then l else
  match e with
  | .turn a => l.turn r a
  | .leave => { l with phase := .broken }
  | .other e => { l with s := l.s.step e }.advance

def steps (l : St) (r : Nat) (es : List Ev) : St := es.foldl (fun l e => l.step r e) l

end St

/-- What happened around the loop. -/
def others (es : List Ev) : List Prom.Ev := es.filterMap fun | .other e => some e | _ => none

/-- A possible history of uses for which promises work (`Prom.Tidy`), around a loop over the
promise at `r`. -/
def TidyRun (r : Nat) : Sp → St → List Ev → Prop
  | _, _, [] => True
  | p, l, e :: es => l.can r e = true ∧ (∀ e', e = .other e' → Tidy p l.s e') ∧
      TidyRun r (p.steps (others [e])) (l.step r e) es

/-- How what the promise stands for has ended. -/
def outcome (p : Sp) : Holds → Option End
  | .coro c => p.ended c
  | .ready v => some (.out (.val v))
  | _ => none

/-- The promise was not moved from. -/
def proper : Holds → Bool
  | .coro _ | .ready _ => true
  | _ => false

/-- A possible history around a loop over the promise at `r`. -/
def Legal (r : Nat) : St → List Ev → Prop
  | _, [] => True
  | l, e :: es => l.can r e = true ∧ Legal r (l.step r e) es

instance Legal.dec (r : Nat) : ∀ (l : St) (es : List Ev), Decidable (Legal r l es)
  | _, [] => isTrue trivial
  | l, e :: es =>
    haveI := Legal.dec r (l.step r e) es
    inferInstanceAs (Decidable (l.can r e = true ∧ Legal r (l.step r e) es))

/-- The loop was interrupted. -/
def Interrupted (es : List Ev) : Prop := ∃ a, .turn a ∈ es ∧ .other (.interrupt a) ∈ es

end Cobalt.Prom.For
