/-!
# Model of `wait_group`

Sources: `include/boost/cobalt/wait_group.hpp`, `include/boost/cobalt/detail/wait_group.hpp`,
and what they use of `detail/race.hpp`, `detail/gather.hpp` and `detail/promise.hpp`.

The members are promises without values. Of each one it is known whether and how its
coroutine has ended, whether its result was taken (`result_taken`), and which
cancellations it was sent. A wait is pending or has ended; the coroutines in between
(the forks of the race and the gather) are not shown: see the model of these
(`Verif.Comb`) and of promises (`Verif.Prom`).

Simplifications:
* The shuffled order of a race (`reorder`, detail/race.hpp:466-470) is given with the
  event; it can be any permutation.
* A wait is not cancelled from outside and its coroutine is not destroyed. Only `wait_one`
  is used while another `wait_one` is pending, and it does not begin to wait for a further
  member before it comes to one of the other; nothing waits while `wait` is pending. See
  `Verif/Shared` for what happens otherwise.
* A coroutine that ends does so in an event of its own, also if it does that in answer to
  a cancellation.
-/
namespace Cobalt.Group

/-- How a member ends. -/
inductive Out where
  | ok
  | err (e : Nat)
deriving DecidableEq, Repr

/-- How a wait ends. -/
inductive Res where
  | ok
  | err (e : Nat)
  | alreadyAwaited
deriving DecidableEq, Repr

/-- A `promise<void>` in the list (wait_group.hpp:71). -/
structure Mem where
  id : Nat
  out : Option Out := none
  taken : Bool := false
  cancels : List Nat := []
deriving DecidableEq, Repr

/-- A pending wait: a `race_wrapper` for the first `n` members, a `gather_wrapper` for the
members named. -/
inductive Wait where
  | one (w n : Nat)
  | all (w : Nat) (ids : List Nat)
deriving DecidableEq, Repr

structure St where
  /-- `ct_normal_` and `ct_except_` (wait_group.hpp:72); 0 is `none` -/
  normal : Nat := 0
  except : Nat := 1
  members : List Mem := []
  wait : Option Wait := none
  /-- waits that have ended, newest first -/
  log : List (Nat × Res) := []
  /-- members destroyed by an ended wait or by `reap`, newest first -/
  gone : List Mem := []
  /-- results of `reap`, newest first -/
  reaps : List Nat := []
  ub : Bool := false
deriving DecidableEq, Repr

namespace St

/-- `race_wrapper::awaitable_type::await_resume` for a race won by the member at `i`
(detail/wait_group.hpp:47-54): an exception is thrown before the member is erased. Its
result is taken in any case (detail/promise.hpp:93-103, 75-79). -/
def wonBy (s : St) (w i : Nat) : St :=
  match s.members[i]? with
  | none => { s with ub := true }
  | some m =>
    match m.out with
    | some (.err e) => { s with
        members := s.members.set i { m with taken := true }, wait := none, log := (w, .err e) :: s.log }
    | _ => { s with
        members := s.members.eraseIdx i, wait := none, log := (w, .ok) :: s.log
        gone := { m with taken := true } :: s.gone }

/-- The member at `i` has ended. -/
def doneAt (s : St) (i : Nat) : Bool :=
  match s.members[i]? with
  | some m => m.out.isSome
  | none => false

/-- `co_await wait_one()`, the members being started in the given order
(detail/wait_group.hpp:30-67, detail/race.hpp:608-651): the first one that has ended wins;
the others are interrupted, which leaves a promise as it is.

If another `wait_one` is pending, its members are awaited already: the first of these
fails with `already_awaited`. `cancel_all` then interrupts the await that has failed
(detail/race.hpp:591: `working[idx]` is still set), and this resumes the coroutine waiting
for that promise (detail/promise.hpp:252-259), which belongs to the other race. It finds
no exception, so that race is won by a member that has not ended. If this was the only member, the group
is empty now and the exception is not thrown (detail/wait_group.hpp:49-50). -/
def waitOne (s : St) (w : Nat) (order : List Nat) : St :=
  if s.members = [] then { s with log := (w, .ok) :: s.log }
  else
    match s.wait with
    | some (.one w' n) =>
      match order.find? fun i => s.doneAt i || i < n with
      | none => { s with ub := true }
      | some i =>
        if s.doneAt i then { wonBy s w i with wait := s.wait }
        else { wonBy s w' i with
          log := (w, if (wonBy s w' i).members = [] then .ok else .alreadyAwaited) :: (wonBy s w' i).log }
    | _ =>
      match order.find? s.doneAt with
      | none => { s with wait := some (.one w s.members.length) }
      | some i => wonBy s w i

/-- The members have all ended: `gather_wrapper::awaitable_type::await_resume`
(detail/wait_group.hpp:99-106). Exceptions are ignored. -/
def clear (s : St) (w : Nat) : St :=
  { s with members := [], wait := none, log := (w, .ok) :: s.log, gone := s.members.reverse ++ s.gone }

/-- `co_await wait()` and `co_await` of the group (detail/wait_group.hpp:80-123). The
results of the members that have ended are taken at once (detail/gather.hpp:321-330). -/
def waitAll (s : St) (w : Nat) : St :=
  if s.members = [] then { s with log := (w, .ok) :: s.log }
  else if s.members.all (·.out.isSome) then clear s w
  else { s with
    members := s.members.map fun m => { m with taken := m.taken || m.out.isSome }
    wait := some (.all w (s.members.map Mem.id)) }

/-- `promise::cancel` of every member (wait_group.hpp:91-96, promise.hpp:112-118). -/
def cancelAll (s : St) (ct : Nat) : St :=
  { s with members := s.members.map fun m => if m.out = none then { m with cancels := ct :: m.cancels } else m }

/-- `co_await await_exit(ep)` (wait_group.hpp:60-67). -/
def exit (s : St) (w : Nat) (failed : Bool) : St :=
  let ct := if failed then s.except else s.normal
  waitAll (if ct ≠ 0 then cancelAll s ct else s) w

/-- `reap` (wait_group.hpp:85-89): `p.ready() && p`. -/
def reap (s : St) : St :=
  { s with
    members := s.members.filter fun m => !(m.out.isSome && !m.taken)
    gone := (s.members.filter fun m => m.out.isSome && !m.taken).reverse ++ s.gone
    reaps := (s.members.filter fun m => m.out.isSome && !m.taken).length :: s.reaps }

/-- Whether `wait` is being awaited for member `id`. -/
def inAll (s : St) (id : Nat) : Bool :=
  match s.wait with
  | some (.all _ ids) => ids.contains id
  | _ => false

/-- Member `id` has ended; `wait` takes its result (detail/gather.hpp:313-319). -/
def ended (s : St) (id : Nat) (o : Out) : List Mem :=
  s.members.map fun m => if m.id = id then { m with out := some o, taken := s.inAll id } else m

/-- The coroutine of member `id` ends; a pending wait may end with it. -/
def complete (s : St) (id : Nat) (o : Out) : St :=
  match s.wait with
  | none => { s with members := s.ended id o }
  | some (.one w n) =>
    if s.members.findIdx (fun m => m.id = id) < n
    then wonBy { s with members := s.ended id o } w (s.members.findIdx fun m => m.id = id)
    else { s with members := s.ended id o }
  | some (.all w ids) =>
    if (s.ended id o).all fun m => !ids.contains m.id || m.out.isSome
    then clear { s with members := s.ended id o } w
    else { s with members := s.ended id o }

end St

inductive Ev where
  | push (id : Nat)
  | complete (id : Nat) (o : Out)
  | waitOne (w : Nat) (order : List Nat)
  | waitAll (w : Nat)
  | exit (w : Nat) (failed : Bool)
  | cancel (ct : Nat)
  | reap
deriving DecidableEq, Repr

/-- Which events are possible. A promise that is pushed has not been in the group before.
It may have ended. -/
def St.can (s : St) : Ev → Bool
  | .push id => !s.members.any (·.id == id) && !s.gone.any (·.id == id)
  | .complete id _ => s.members.any fun m => m.id == id && m.out == none
  | .waitOne _ order => order.isPerm (List.range s.members.length) &&
      (match s.wait with
        | some (.all _ _) => false
        | some (.one _ n) =>
          -- see `Verif/Shared/Model.lean` for the other case, which is undefined
          (match order.find? fun i => s.doneAt i || decide (i < n) with
            | some i => s.doneAt i || order.head? == some i
            | none => true)
        | none => true)
  | .waitAll _ | .exit _ _ => s.wait == none
  | .cancel _ | .reap => true

namespace St

def act (s : St) : Ev → St
  | .push id => { s with members := s.members ++ [{ id := id }] }
  | .complete id o => complete s id o
  | .waitOne w order => waitOne s w order
  | .waitAll w => waitAll s w
  | .exit w failed => exit s w failed
  | .cancel ct => cancelAll s ct
  | .reap => reap s

def step (s : St) (e : Ev) : St := if s.ub || !s.can e then s else act s e

def steps (s : St) (es : List Ev) : St := es.foldl step s

/-- A group made with these cancellation types (wait_group.hpp:77-80), after the events. -/
def run (normal except : Nat) (es : List Ev) : St := steps { normal, except } es

end St

end Cobalt.Group
