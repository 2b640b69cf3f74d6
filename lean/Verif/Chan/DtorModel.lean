import Verif.Chan.Model
/-!
# Model of the destructor of a channel

Sources: `impl/channel.hpp:41-50`, `src/channel.cpp:14-22`, `detail/fork.hpp:45-55` (the count of the
children of a combinator), `detail/race.hpp:40-62, 140-170`, `detail/gather.hpp:96-112`,
`detail/join.hpp:70-90`.

The destructor destroys the coroutine that waits for the first operation of a queue, until the queue
is empty; operations take themselves out of the queue when they are destroyed.

Where operations live: in the frame of the coroutine that awaits them; in the frame of a child of a
combinator, for awaitables with `operator co_await`, as `channel_reader`; or, for
`race(c.read(), …)` and the like, in the awaitable of the combinator, which the frames of
its children refer to.

Simplifications: destructors of what the coroutines hold do not use the channel; a coroutine
does not own another one that waits for the channel, except for the children of combinators.
-/
namespace Cobalt.Chan

/-- Where an operation lives. -/
inductive Place where
  /-- in the frame of the coroutine that waits -/
  | own
  /-- in the frame of a child of this combinator, which waits -/
  | fork (g : Nat)
  /-- in this combinator; a child of it waits -/
  | ref (g : Nat)
deriving DecidableEq, Repr

def Place.group : Place → Option Nat
  | .own => none
  | .fork g | .ref g => some g

/-- What the destructor works on. -/
structure D where
  /-- `read_queue_`, then `write_queue_` -/
  q : List Tok
  /-- `awaited_from` is set -/
  waiting : Tok → Bool
  /-- `use_count` of a combinator: the children that have not ended -/
  live : Nat → Nat
  /-- the coroutines destroyed, by the operation they waited for -/
  killed : List Tok := []
  /-- the combinators whose awaiter was destroyed -/
  awaiters : List Nat := []

/-- A child of combinator `g` was destroyed: with the last one goes the coroutine that awaits the
combinator (fork.hpp:51-55), and the operations that live in it. -/
def D.leave (d : D) (place : Tok → Place) (g : Nat) : D :=
  { d with
    live := upd d.live g (d.live g - 1)
    q := if d.live g - 1 = 0 then d.q.filter (fun t => place t ≠ .ref g) else d.q
    awaiters := if d.live g - 1 = 0 then d.awaiters ++ [g] else d.awaiters }

/-- One turn of the loop: `front().awaited_from.reset()`. -/
def D.turn (d : D) (place : Tok → Place) : D :=
  match d.q with
  | [] => d
  | t :: rest =>
    if d.waiting t then
      match place t with
      | .own => { d with q := rest, killed := d.killed ++ [t] }
      | .fork g => ({ d with q := rest, killed := d.killed ++ [t] } : D).leave place g
      | .ref g =>
        ({ d with
           waiting := fun u => if u = t then false else d.waiting u
           killed := d.killed ++ [t] } : D).leave place g
    else d -- `reset` of an empty handle does nothing

def D.turns (d : D) (place : Tok → Place) : Nat → D
  | 0 => d
  | n + 1 => (d.turn place).turns place n

/-- The destructor of the channel is entered. -/
def St.dtor (s : St) (live : Nat → Nat) : D :=
  { q := s.rq.map .r ++ s.wq.map .w
    waiting := fun t => match t with
      | .r i => (s.R i).waiting
      | .w i => (s.W i).waiting
    live }

/-- The resumption of an operation uses the channel: reads always (impl/channel.hpp:169), writes
unless they are refused (impl/channel.hpp:284-295). -/
def St.usesChannel (s : St) : Tok → Bool
  | .r _ => true
  | .w i => !((s.W i).closedF || (s.W i).cancelled)

end Cobalt.Chan
