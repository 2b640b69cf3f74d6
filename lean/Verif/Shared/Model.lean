import Verif.Group.Model

/-!
# Model of a `wait_group` that several coroutines wait for

Sources: `include/boost/cobalt/wait_group.hpp`, `include/boost/cobalt/detail/wait_group.hpp`, and what they
use of `detail/race.hpp`, `detail/gather.hpp`, `detail/promise.hpp` and `detail/fork.hpp`.

As `Verif/Group/Model.lean`, but any number of `wait` and `wait_one` may be pending at a time. A promise has room
for one coroutine that waits for it (`awaited_from`, detail/promise.hpp:204-208), so of every member it is
known which wait waits for it.

* `wait` begins to wait for the members nobody waits for; for the others it is told `already_awaited`, which
  `gather` puts into its result (detail/promise.hpp:204-208, detail/gather.hpp:321-326), and
  `gather_wrapper` throws that result away (detail/wait_group.hpp:104).
* When it ends it destroys all members (detail/wait_group.hpp:105). A promise destroys the coroutine that waits
  for it with it (`awaited_from` is a `unique_handle`). This is a fork of another wait; with the last
  one of these goes the coroutine that awaits it (detail/fork.hpp:44-48).
* `wait_one` stops at the first member that has ended or that another wait waits for. In the second case it fails, and
  its `cancel_all` interrupts the await that has failed (detail/race.hpp:591: `working[idx]` is still set). This
  resumes the fork of the other wait (detail/promise.hpp:252-259), which finds no exception. So that
  one goes on as if the member had ended.
* If that lets the other wait end, the promise is destroyed, by `erase` or `clear`, while
  the failed await still points to it. If `wait_one` has begun to wait for other members before, `cancel_all` is called
  once more for each of these, and interrupts the failed await again: it uses a promise that was destroyed.

Simplifications:
* The shuffled order of a race (`reorder`, detail/race.hpp:466-470) is given with the event.
* No wait is cancelled from outside and no awaiting coroutine is destroyed otherwise. `await_exit` is `wait` after
  a cancellation, and is not shown.
* A coroutine that ends does so in an event of its own, also if it does that in answer to the
  cancellation that the destructor of its promise sends.
* Waits are numbered in the order in which they begin.
-/
namespace Cobalt.Shared
open Group (Out Res)

/-- A `promise<void>` in the list (wait_group.hpp:71). -/
structure Mem where
  id : Nat
  out : Option Out := none
  /-- `result_taken` (detail/promise.hpp:44, 75) -/
  taken : Bool := false
  /-- the wait that waits for it (`awaited_from`) -/
  aw : Option Nat := none
deriving DecidableEq, Repr

structure St where
  members : List Mem := []
  /-- the number of the next wait -/
  next : Nat := 0
  /-- the `wait_one` that is pending, with the members it found -/
  one : Option (Nat × List Nat) := none
  /-- waits that have ended, newest first -/
  log : List (Nat × Res) := []
  /-- waits of which a fork was destroyed with a member -/
  killed : List Nat := []
  /-- members destroyed, newest first -/
  gone : List Mem := []
  ub : Bool := false
deriving DecidableEq, Repr

inductive Ev where
  | push (id : Nat)
  | complete (id : Nat) (o : Out)
  | waitOne (order : List Nat)
  | waitAll
  | reap
deriving DecidableEq, Repr

/-- This wait waits for the member. -/
def Mem.by (w : Nat) (m : Mem) : Bool := m.aw == some w

/-- Nobody waits for it any more. -/
def Mem.free (w : Nat) (m : Mem) : Mem := if m.by w then { m with aw := none } else m

/-- A race stops at it. -/
def Mem.hit (m : Mem) : Bool := m.out.isSome || m.aw.isSome

namespace St

/-- The wait waits for a member. -/
def busy (s : St) (w : Nat) : Bool := s.members.any (Mem.by w)

/-- `race_wrapper::awaitable_type::await_resume` for a race won by the member at `i`
(detail/wait_group.hpp:47-54): an exception is thrown before the member is erased. The other members are not waited for any
more (detail/race.hpp:585-586). -/
def wonBy (s : St) (w i : Nat) : St :=
  match s.members[i]? with
  | none => { s with ub := true }
  | some m =>
    match m.out with
    | some (.err e) => { s with
        members := (s.members.map fun x => if x.id = m.id then { x with taken := true } else x).map (Mem.free w)
        log := (w, .err e) :: s.log }
    | _ => { s with
        members := (s.members.eraseIdx i).map (Mem.free w), log := (w, .ok) :: s.log
        gone := { m with taken := true } :: s.gone }

/-- `gather_wrapper::awaitable_type::await_resume` (detail/wait_group.hpp:99-106). -/
def clear (s : St) (w : Nat) : St :=
  { s with
    members := [], one := none, log := (w, .ok) :: s.log
    killed := s.members.filterMap Mem.aw ++ s.killed
    gone := s.members.reverse ++ s.gone }

/-- `wait` begins to wait for a member, or takes its result (detail/gather.hpp:302-330). -/
def gathered (w : Nat) (m : Mem) : Mem :=
  if m.out.isSome then { m with taken := true } else
  match m.aw with
  | some _ => m
  | none => { m with aw := some w }

/-- `co_await wait()` (detail/wait_group.hpp:80-123). -/
def waitAll (s : St) : St :=
  let w := s.next
  let s : St := { s with next := s.next + 1 }
  if s.members = [] then { s with log := (w, .ok) :: s.log }
  else
    let s : St := { s with members := s.members.map (gathered w) }
    if s.busy w then s else s.clear w

/-- The fork of wait `w` that waited for member `id` has gone on: the wait may end. -/
def wake (s : St) (w id : Nat) : St :=
  match s.one with
  | some (w', ids) =>
    if w' = w then { s with one := none }.wonBy w (ids.findIdx (· = id))
    else if s.busy w then s else s.clear w
  | none => if s.busy w then s else s.clear w

/-- The fork that waits for member `id`, which has ended like this or not at all, takes what there is and does not
wait any more. -/
def take (s : St) (id : Nat) (o : Option Out) : St :=
  { s with members := s.members.map fun x => if x.id = id then { x with out := o, aw := none, taken := true } else x }

/-- `wait_one` has come to member `id`, which wait `w'` waits for. The exception is not thrown if the group is empty now
(detail/wait_group.hpp:49-50). `own`: it has begun to wait for others before. -/
def clash (s : St) (w id w' : Nat) (own : Bool) : St :=
  let t := (s.take id none).wake w' id
  { t with
    log := (w, if t.members = [] then .ok else .alreadyAwaited) :: t.log
    ub := t.ub || (own && t.gone.any fun m => m.id == id) }

/-- `co_await wait_one()`, the members being started in the given order (detail/wait_group.hpp:30-67,
detail/race.hpp:508-651). -/
def waitOne (s : St) (order : List Nat) : St :=
  let w := s.next
  let s : St := { s with next := s.next + 1 }
  if s.members = [] then { s with log := (w, .ok) :: s.log }
  else
    match order.find? fun i => s.members[i]?.any Mem.hit with
    | none => { s with
        members := s.members.map fun m => { m with aw := some w }
        one := some (w, s.members.map Mem.id) }
    | some i =>
      match s.members[i]? with
      | none => { s with ub := true }
      | some m =>
        match m.out, m.aw with
        | none, some w' => s.clash w m.id w' (order.head? != some i)
        | _, _ => s.wonBy w i

/-- The coroutine of member `id` ends (detail/promise.hpp:105-112). -/
def complete (s : St) (id : Nat) (o : Out) : St :=
  match s.members.find? (·.id == id) with
  | none => { s with ub := true }
  | some m =>
    match m.aw with
    | none => { s with members := s.members.map fun x => if x.id = id then { x with out := some o } else x }
    | some w => (s.take id (some o)).wake w id

/-- A member that `reap` removes: `p.ready() && p` (wait_group.hpp:85-89, promise.hpp:124-130). -/
def ripe (m : Mem) : Bool := m.out.isSome && !m.taken

def reap (s : St) : St :=
  { s with
    members := s.members.filter fun m => !ripe m
    gone := (s.members.filter ripe).reverse ++ s.gone }

/-- Which events are possible. A promise that is pushed was not in the group before. -/
def can (s : St) : Ev → Bool
  | .push id => !s.members.any (·.id == id) && !s.gone.any (·.id == id)
  | .complete id _ => s.members.any fun m => m.id == id && m.out == none
  | .waitOne order => order.isPerm (List.range s.members.length)
  | .waitAll | .reap => true

def act (s : St) : Ev → St
  | .push id => { s with members := s.members ++ [{ id := id }] }
  | .complete id o => s.complete id o
  | .waitOne order => s.waitOne order
  | .waitAll => s.waitAll
  | .reap => s.reap

def step (s : St) (e : Ev) : St := if s.ub || !s.can e then s else s.act e

def steps (s : St) (es : List Ev) : St := es.foldl step s

def run (es : List Ev) : St := steps {} es

end St

end Cobalt.Shared
