import Verif.Gen.Spec
/-!
# Model of `BOOST_COBALT_FOR(v, generator)`

Sources: `include/boost/cobalt/async_for.hpp:11-16` and the sources of `Gen/Model.lean`.

The loop is `for (auto && id = expression; id; ) if (v = co_await id; false) {} else body`:
test `operator bool`, await the generator, run the body of the loop with the value. An await
that fails throws, which leaves the loop. `break` and `return` leave it too. The body of the
loop is not modelled beyond its argument; while it runs anything else may happen. It does
not use the generator.

With `Push` other than `void` the loop cannot be written; the number pushed by a turn only
tells the turns apart.
-/
namespace Cobalt.Gen.For

/-- Where the loop is: about to test `operator bool`, or in the body before; waiting in await
`a`; ended because the test failed; left by an exception; left by `break`; destroyed while it
waited. -/
inductive Phase where
  | head | waiting (a : Nat) | finished | thrown (e : Err) | broken | destroyed
deriving DecidableEq, Repr

structure St where
  g : Gen.St
  phase : Phase := .head
  /-- the number of the next await -/
  next : Nat := 0
  /-- the values the body of the loop ran with, in order -/
  seen : List Nat := []

namespace St

/-- If the await has ended the loop goes on: `v = co_await id` and the body, or the
exception. -/
def advance (l : St) : St :=
  match l.phase with
  | .waiting a =>
    if a ∈ l.g.killed then { l with phase := .destroyed } else
    match (l.g.aw a).bind (·.got) with
    | some (.val v) => { l with phase := .head, seen := l.seen ++ [v] }
    | some (.err e) => { l with phase := .thrown e }
    | none => l
  | _ => l

/-- One test of `operator bool` and, if it holds, the start of `co_await id`
(async_for.hpp:12-13). -/
def turn (l : St) : St :=
  if l.g.toBool then
    { l with g := l.g.step (.await l.next l.next), phase := .waiting l.next, next := l.next + 1 }.advance
  else { l with phase := .finished }

end St

inductive Ev where
  | turn
  | leave
  /-- of the coroutine of the generator, of the executor, of who interrupts the await; `drop`:
  the generator is destroyed -/
  | other (e : Gen.Ev)
deriving DecidableEq, Repr

/-- Which events are possible. The loop is the only one to use the generator, which lives at
least as long as the loop. -/
def St.can (l : St) : Ev → Bool
  | .turn | .leave => l.phase == .head
  | .other (.await ..) | .other (.get _) => false
  | .other (.interrupt a) => l.phase == .waiting a
  | .other .drop => (l.phase == .finished || l.phase == .broken || l.phase == .destroyed ||
      match l.phase with | .thrown _ => true | _ => false) && l.g.can .drop
  | .other e => l.g.can e

namespace St

def step (l : St) (e : Ev) : St :=
  if !l.can e then l else
  match e with
  | .turn => l.turn
  | .leave => { l with phase := .broken }
  | .other e => { l with g := l.g.step e }.advance

def steps (l : St) (es : List Ev) : St := es.foldl step l

/-- The loop over a new generator. -/
def run (void : Bool) (es : List Ev) : St := steps { g := { void := void } } es

end St

/-- A possible history. -/
def Legal : St → List Ev → Prop
  | _, [] => True
  | l, e :: es => l.can e = true ∧ Legal (l.step e) es

instance Legal.dec : ∀ (l : St) (es : List Ev), Decidable (Legal l es)
  | _, [] => isTrue trivial
  | l, e :: es =>
    haveI := Legal.dec (l.step e) es
    inferInstanceAs (Decidable (l.can e = true ∧ Legal (l.step e) es))

/-- What happened to the generator from outside the loop. -/
def others (es : List Ev) : List Gen.Ev := es.filterMap fun | .other e => some e | _ => none

/-- The body does not `co_await this_coro::initial` while it is awaited. -/
def Calm : St → List Ev → Prop
  | _, [] => True
  | l, e :: es => (e = .other .initial → l.g.awaited = none) ∧ Calm (l.step e) es

instance Calm.dec : ∀ (l : St) (es : List Ev), Decidable (Calm l es)
  | _, [] => isTrue trivial
  | l, e :: es =>
    haveI := Calm.dec (l.step e) es
    inferInstanceAs (Decidable ((e = .other .initial → l.g.awaited = none) ∧ Calm (l.step e) es))

end Cobalt.Gen.For
