import Verif.Comb.Spec

/-!
# Combinators that await combinators

An awaitable given to `gather`, `join` or `race` may be such an expression itself. A tree has a
combinator at every node, with the history of all that happened to it, and awaitables of any kind at
its leaves. What a node does is `Verif/Comb/Model.lean`; here is how a node and a node below it call
each other:

* the child coroutine of the upper node awaits the lower one: `await_ready` and `await_suspend`
  start it (gather.hpp:96-101, 134-170, join.hpp:119-124, 163-199, race.hpp:205-209, 293-323);
* if the lower one is over at the end of either, or when its last child resumes the coroutine
  (fork.hpp:49-56), that takes the result and goes on (gather.hpp:102-132, join.hpp:125-161,
  race.hpp:213-275);
* a signal the upper node sends to the child reaches the slot the lower one has connected
  (gather.hpp:174-182, join.hpp:206-215, race.hpp:327-336); an interruption calls its
  `interrupt_await`.

Simplified: results are numbers, so only whether the lower node throws, and what, is carried over.
The upper node may let the lower one be told of a signal or an interruption any number of times
during the call, or not at all; the theorems hold for all of these. Neither does the model say in
which order calls of different nodes return. None of the combinators begins a transaction of the
coroutine that awaits it: `begin_transaction` is called by channels only (impl/channel.hpp).
-/
namespace Cobalt.Comb

/-- A combinator with the events so far and its awaitables, or another awaitable. -/
inductive Tree where
  | leaf
  | node (c : Cfg) (es : List Ev) (kids : Nat → Tree)

namespace Tree

/-- What comes of a move. -/
inductive Next where
  /-- it is not possible -/
  | no
  /-- undefined behaviour -/
  | ub
  | ok (t : Tree)

def isLeaf : Tree → Bool
  | leaf => true
  | node .. => false

/-- The event happens to the combinator at the root. -/
def feed (t : Tree) (e : Ev) : Next :=
  match t with
  | leaf => .no
  | node c es kids =>
    if (St.run c es).can c e then
      if ((St.run c es).step c e).ub then .ub else .ok (node c (es ++ [e]) kids)
    else .no

/-- Awaiting the combinator at the root has begun. -/
def begun : Tree → Bool
  | leaf => false
  | node _ es _ => !es.isEmpty

/-- The combinator at the root lets its awaiter go on. -/
def over : Tree → Prop
  | leaf => False
  | node c es _ => (St.run c es).over

instance (t : Tree) : Decidable t.over := by cases t <;> unfold over <;> infer_instance

/-- It does so with this outcome. -/
def gives : Tree → Out → Bool
  | leaf, _ => false
  | node c es _, o =>
    match (St.run c es).resume c, o with
    | .thrown e, .err x => e == x
    | .thrown _, .ok _ => false
    | _, .ok _ => true
    | _, .err _ => false

/-- The awaitable `j` of the node at the root, if it is a combinator. -/
def kid : Tree → Nat → Tree
  | leaf, _ => leaf
  | node _ _ kids, j => kids j

/-- The node at the root, with another awaitable `j`. -/
def put : Tree → Nat → Next → Next
  | leaf, _, _ => .no
  | node _ _ _, _, .no => .no
  | node _ _ _, _, .ub => .ub
  | node c es kids, j, .ok t => .ok (node c es (upd kids j t))

def top : Tree → Option Frame
  | leaf => none
  | node c es _ => (St.run c es).stack.head?

end Tree

/-- What can happen inside a tree, at one of its nodes. -/
inductive Doing where
  /-- an awaitable that is not a combinator is ready, is not, throws, ends or begins a transaction,
  or a call the node made returns -/
  | ev (e : Ev)
  /-- `await_ready` of the combinator `j` is called -/
  | begin (j : Nat)
  /-- it returns true, and `await_resume` gives the outcome -/
  | ready (j : Nat) (o : Out) (d : Bool)
  /-- it returns false -/
  | notReady (j : Nat)
  /-- the combinator `j` lets the coroutine that awaits it go on -/
  | fin (j : Nat) (o : Out)
  /-- a signal that is being sent reaches the combinator `j` -/
  | emit (j : Nat)
  /-- an interruption does -/
  | intr (j : Nat)

/-- The awaitable that is concerned by an event. -/
def Ev.of : Ev → Option Nat
  | .ready i _ _ => some i
  | .notReady i => some i
  | .thrown i _ _ => some i
  | .fin i _ => some i
  | .txn i => some i
  | _ => none

namespace Tree

/-- Something happens at the root. -/
def act (t : Tree) : Doing → Next
  | .ev e =>
    match e with
    | .begin | .cancel _ | .interrupt => .no
    | e => if e.of.all fun i => (t.kid i).isLeaf then t.feed e else .no
  | .begin j => if t.top = some (.asking j) then t.put j ((t.kid j).feed .begin) else .no
  | .ready j o d => if (t.kid j).over ∧ (t.kid j).gives o then t.feed (.ready j o d) else .no
  | .notReady j => if (t.kid j).begun then t.feed (.notReady j) else .no
  | .fin j o => if (t.kid j).over ∧ (t.kid j).gives o then t.feed (.fin j o) else .no
  | .emit j =>
    match t.top with
    | some (.emit k _ ct _) => if k = j then t.put j ((t.kid j).feed (.cancel ct)) else .no
    | _ => .no
  | .intr j =>
    match t.top with
    | some (.intr k _ _) => if k = j then t.put j ((t.kid j).feed .interrupt) else .no
    | _ => .no

/-- Something happens at the node with this path. -/
def inside : Tree → List Nat → Doing → Next
  | t, [], a => t.act a
  | leaf, _ :: _, _ => .no
  | node c es kids, j :: p, a => (node c es kids).put j ((kids j).inside p a)

end Tree

/-- A move: something inside, or the awaiter of the root begins to await, is sent a cancellation, or
is interrupted. -/
inductive Mv where
  | inside (p : List Nat) (a : Doing)
  | begin
  | cancel (ct : Nat)
  | interrupt

def Tree.move (t : Tree) : Mv → Next
  | .inside p a => t.inside p a
  | .begin => t.feed .begin
  | .cancel ct => t.feed (.cancel ct)
  | .interrupt => t.feed .interrupt

/-- A run, up to undefined behaviour. -/
def Tree.moves : Tree → List Mv → Next
  | t, [] => .ok t
  | t, m :: ms =>
    match t.move m with
    | .no => .no
    | .ub => .ub
    | .ok u => u.moves ms

namespace Tree

/-- The part of the tree with this path. -/
def at' : Tree → List Nat → Tree
  | t, [] => t
  | leaf, _ :: _ => leaf
  | node _ _ kids, j :: p => (kids j).at' p

/-- Nothing has happened yet, and the arguments are in order. -/
def Fresh : Tree → Prop
  | leaf => True
  | node c es kids => c.Ok ∧ c.n ≠ 0 ∧ es = [] ∧ ∀ j, (kids j).Fresh

/-- The path leads to an argument of an argument, and so on. -/
def Arg : Tree → List Nat → Prop
  | _, [] => True
  | leaf, _ :: _ => False
  | node c _ kids, j :: p => j < c.n ∧ (kids j).Arg p

/-- The node at the root is forwarding a cancellation or an interruption from above. -/
def outside : Tree → Bool
  | leaf => false
  | node c es _ => (St.run c es).stack.any fun
    | .intr _ .ext _ => true
    | .emit _ .ext _ _ => true
    | _ => false

/-- With the move an awaitable completes at the node with this path. -/
def _root_.Cobalt.Comb.Mv.ends : Mv → Option (List Nat)
  | .inside p (.fin _ _) => some p
  | .inside p (.ev (.fin _ _)) => some p
  | _ => none

/-- Nothing completes while the node that awaits it is forwarding: completions are posted. -/
def Posted : Tree → List Mv → Bool
  | _, [] => true
  | t, m :: ms => (m.ends.all fun p => !(t.at' p).outside) && match t.move m with
    | .ok u => u.Posted ms
    | _ => true

/-- All calls have returned, and every combinator that is over has told the one that awaits it. -/
def Quiet (t : Tree) : Prop := ∀ p c es kids, t.at' p = node c es kids → (St.run c es).stack = [] ∧
  ∀ i, (kids i).over → (outcome es i).isSome = true

end Tree

end Cobalt.Comb
