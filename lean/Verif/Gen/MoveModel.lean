import Verif.Gen.Model
/-!
# Model of moving a `generator`

Sources: `include/boost/cobalt/generator.hpp`, `include/boost/cobalt/detail/generator.hpp`.

Any number of generator objects at addresses and of coroutines with their frames. An
object points into the frame of its coroutine (`reference`), the frame points back to the
object (`receiver`), an awaitable points to the object it was made from (`self`). All of
them can dangle. What an object does between moves is the model of one generator
(`Gen/Model.lean`), applied to the fields of the object.

Simplifications, besides the ones listed there:
* Moving a value leaves `left v` behind, for a function `left` that depends on the type.
  The `optional` it is in keeps having a value, as the standard says.
* A moved-from `std::exception_ptr` is null.
* An await is interrupted only while it waits for the object it was made from.
* Assigning a generator to itself is left out.
* The cancellation a generator sends when it is destroyed or assigned to is left out.
* What is recorded about a generator (`aw`, `log`, `received`, `killed`) goes with it when
  it is moved, and begins anew for the object it was moved from.
-/
namespace Cobalt.Gen.Move

open Prom (upd upd_apply)

/-- A `generator` (generator.hpp:61): the fields of its receiver with the place where the
body is, and the frame that `reference` points into (detail/generator.hpp:158). -/
structure Obj where
  g : Gen.St
  ref : Nat

/-- The promise of a coroutine (detail/generator.hpp:447). `phase` says where the body is
if it has no receiver; if it has one, the object says that. -/
structure Frame where
  receiver : Option Nat
  phase : Phase := .running
deriving DecidableEq, Repr

structure St where
  /-- `Push` is `void` -/
  void : Bool := false
  /-- what moving leaves of a value -/
  left : Nat → Nat := id
  obj : Nat → Option Obj := fun _ => none
  frame : Nat → Option Frame := fun _ => none
  born : Nat → Bool := fun _ => false
  /-- `self` of the awaitables (detail/generator.hpp:181) -/
  self : Nat → Option Nat := fun _ => none
  /-- awaiting coroutines destroyed with the object they waited for -/
  killed : List Nat := []
  ub : Bool := false

inductive Ev where
  /-- a coroutine `c` begins; its generator is at `r` -/
  | create (c r : Nat)
  /-- an event of the body: `initial`, `yield`, `ret`, `throw`, `kill` or `run` -/
  | body (c : Nat) (e : Gen.Ev)
  | await (a r p : Nat)
  | interrupt (a : Nat)
  | get (a r : Nat)
  /-- `generator r'(std::move(r))` -/
  | moveC (r r' : Nat)
  /-- `r = std::move(r')` -/
  | moveA (r r' : Nat)
  | drop (r : Nat)
deriving DecidableEq, Repr

/-- The event is one of the body. -/
def isBody : Gen.Ev → Bool
  | .initial | .yield _ | .ret _ | .throw _ | .kill | .run => true
  | _ => false

namespace St

/-- A body without receiver, as in the model of one generator. -/
def alone (s : St) (ph : Phase) : Gen.St := { void := s.void, recv := false, phase := ph }

/-- Which events are possible: objects exist or do not yet. -/
def can (s : St) : Ev → Bool
  | .create c r => !s.born c && (s.obj r).isNone
  | .body c e => isBody e && match s.frame c with
    | none => false
    | some f => match f.receiver with
      | none => (s.alone f.phase).can e
      | some r => match s.obj r with
        | none => true
        | some o => o.g.can e
  | .await a r _ | .get a r => (s.obj r).isSome && (s.self a).isNone
  | .interrupt a => match s.self a with
    | none => false
    | some r => match s.obj r with
      | none => false
      | some o => o.g.awaited == some a && o.g.can (.interrupt a)
  | .moveC r r' => (s.obj r).isSome && (s.obj r').isNone
  | .moveA r r' => (s.obj r).isSome && (s.obj r').isSome && r != r'
  | .drop r => (s.obj r).isSome

/-- The object at `r` was `o` and has `g` now. The frame is gone if the body has ended. -/
def put (s : St) (r : Nat) (o : Obj) (g : Gen.St) : St :=
  { s with
    obj := upd s.obj r (some { o with g := g })
    frame := if g.phase = .gone ∧ o.g.phase ≠ .gone then upd s.frame o.ref none else s.frame
    ub := g.ub }

/-- The coroutine waiting for `r` if its awaitable was made from another object. -/
def away (s : St) (r : Nat) (o : Obj) : Option (Nat × Nat) :=
  match o.g.awaited with
  | none => none
  | some a => match s.self a with
    | none => none
    | some q => if q = r then none else some (a, q)

/-- An event of the body of `c`. If it resumes the waiting coroutine, `await_resume` uses
the object that the awaitable was made from (detail/generator.hpp:267-318). -/
def body (s : St) (c : Nat) (e : Gen.Ev) : St :=
  match s.frame c with
  | none => { s with ub := true }
  | some f =>
    match f.receiver with
    | none =>
      let g := (s.alone f.phase).step e
      { s with frame := upd s.frame c (if g.phase = .gone then none else some { f with phase := g.phase }), ub := g.ub }
    | some r =>
      match s.obj r with
      | none => { s with ub := true }
      | some o =>
        if e = .kill then put s r o (o.g.step e) else
        match s.away r o with
        | none => put s r o (o.g.step e)
        | some (a, q) =>
          let g := Gen.St.step { o.g with awaited := none } e
          if g.phase = .running ∨ g.ub = true then put s r o { g with awaited := some a }
          else
            let s := put s r o g
            match s.obj q with
            | none => { s with ub := true }
            | some o' => put s q o' (Gen.St.resumeAw { o'.g with aw := upd o'.g.aw a (o.g.aw a) } a)

/-- The object at `r` leaves its coroutine: its `receiver` is cleared, a body suspended at
a yield is destroyed with `yield_from`, a coroutine waiting for it with `awaited_from`
(detail/generator.hpp:117-121 and 132-142; generator.hpp:109). -/
def leave (s : St) (r : Nat) (o : Obj) : St :=
  match s.frame o.ref with
  | none => { s with ub := true }
  | some f =>
    if f.receiver = some r then { s with
      frame := upd s.frame o.ref (if o.g.phase = .parked then none else some { receiver := none, phase := o.g.phase })
      killed := o.g.awaited.toList ++ s.killed }
    else { s with killed := o.g.awaited.toList ++ s.killed }

/-- `~generator_receiver` (detail/generator.hpp:117-121). -/
def drop (s : St) (r : Nat) : St :=
  match s.obj r with
  | none => { s with ub := true }
  | some o =>
    let s := if o.g.done then { s with killed := o.g.awaited.toList ++ s.killed } else leave s r o
    { s with obj := upd s.obj r none }

/-- What a move leaves of the object `o` (detail/generator.hpp:100-115 and 137-153). -/
def source (s : St) (o : Obj) : Obj :=
  { o with g :=
    { void := s.void
      phase := .gone
      lazy := o.g.lazy
      result := o.g.result.map s.left
      buffer := o.g.buffer.map s.left
      exc := if o.g.done then none else some .movedFrom
      done := true
      pushed := o.g.pushed.map s.left } }

/-- `*reference = this` unless the generator is done (detail/generator.hpp:109-113 and
148-152). -/
def repoint (s : St) (o : Obj) (r : Nat) : St :=
  if o.g.done then s else
  match s.frame o.ref with
  | none => { s with ub := true }
  | some f => { s with frame := upd s.frame o.ref (some { f with receiver := some r }) }

/-- The move constructor (detail/generator.hpp:100-115, generator.hpp:26). -/
def moveConstruct (s : St) (r r' : Nat) : St :=
  match s.obj r with
  | none => { s with ub := true }
  | some o =>
    let s := repoint s o r'
    { s with obj := upd (upd s.obj r (some (s.source o))) r' (some o) }

/-- The move assignment `r = std::move(r')`. It looks into the frame of the coroutine that
`r` had, whether that has ended or not (detail/generator.hpp:130-156,
generator.hpp:111-118). -/
def moveAssign (s : St) (r r' : Nat) : St :=
  match s.obj r, s.obj r' with
  | some o, some o' =>
    let s := leave s r o
    if s.ub then s else
    let s := repoint s o' r
    { s with obj := upd (upd s.obj r' (some (s.source o'))) r (some o') }
  | _, _ => { s with ub := true }

/-- One event. Nothing changes after undefined behaviour. -/
def step (s : St) (e : Ev) : St :=
  if s.ub || !s.can e then s else
  match e with
  -- generator.hpp:58-60, detail/generator.hpp:123-127
  | .create c r => { s with
      born := upd s.born c true, frame := upd s.frame c (some { receiver := some r })
      obj := upd s.obj r (some { g := { void := s.void }, ref := c }) }
  | .body c e => body s c e
  | .await a r p => match s.obj r with
    | none => { s with ub := true }
    | some o => put { s with self := upd s.self a (some r) } r o (o.g.step (.await a p))
  | .get a r => match s.obj r with
    | none => { s with ub := true }
    | some o => put { s with self := upd s.self a (some r) } r o (o.g.step (.get a))
  | .interrupt a => match s.self a with
    | none => { s with ub := true }
    | some r => match s.obj r with
      | none => { s with ub := true }
      | some o => put s r o (o.g.step (.interrupt a))
  | .moveC r r' => moveConstruct s r r'
  | .moveA r r' => moveAssign s r r'
  | .drop r => drop s r

def steps (s : St) (es : List Ev) : St := es.foldl step s

/-- Nothing yet, then the given events. -/
def run (void : Bool) (left : Nat → Nat) (es : List Ev) : St := steps { void := void, left := left } es

end St

end Cobalt.Gen.Move
