import Verif.Group.Model

/-!
# Model of `with` applied to a `wait_group`

Sources: `include/boost/cobalt/with.hpp`, `include/boost/cobalt/detail/with.hpp`,
`include/boost/cobalt/wait_group.hpp`, `include/boost/cobalt/detail/wait_group.hpp`,
`include/boost/cobalt/promise.hpp`.

`co_await with(wait_group(n, x), func)`: the group is the parameter `arg` of the coroutine
`with` (with.hpp:38), `func` is awaited, then `arg.await_exit(e)` (with.hpp:59, 23-28), then
the coroutine that awaits is resumed and the frame destroyed, and the group with it
(detail/with.hpp:113-133). The group is the one of `Verif.Group`. Added is here what the
coroutines in the group do: each runs until it has ended, whether its promise is in the
group or not, and may use the group as long as it runs.

Simplifications:
* Those of `Verif.Group`. So a wait begun in `func` has ended when `func` ends.
* What `func` does itself and what other coroutines do for it before it ends is one
  author (`none`).
* The coroutine that awaits `with` is not destroyed meanwhile.
-/
namespace Cobalt.Nurse

inductive Phase where
  | inFunc
  | inExit
  | over
deriving DecidableEq, Repr

structure St where
  g : Group.St
  phase : Phase := .inFunc
  /-- `e` (with.hpp:41) -/
  e : Option Nat := none
  /-- the coroutines of the group that have not ended -/
  running : List Nat := []
  ub : Bool := false
deriving DecidableEq, Repr

/-- What happens. The author of an action is `func` or a coroutine of the group. -/
inductive Ev where
  | push (a : Option Nat) (id : Nat)
  | cancel (a : Option Nat) (ct : Nat)
  | reap (a : Option Nat)
  /-- in `func` -/
  | waitOne (w : Nat) (order : List Nat)
  | waitAll (w : Nat)
  /-- the coroutine of a member ends -/
  | complete (id : Nat) (o : Group.Out)
  /-- `func` ends, with this exception -/
  | funcEnds (x : Option Nat)
deriving DecidableEq, Repr

namespace St

/-- The author can act. -/
def acts (s : St) : Option Nat → Bool
  | none => s.phase == .inFunc
  | some id => s.running.contains id

/-- The exit of the group has ended (detail/wait_group.hpp:99-106): `with` ends
(with.hpp:61-68) and its frame is destroyed. -/
def settle (s : St) : St :=
  if s.phase = .inExit ∧ s.g.wait = none then { s with phase := .over } else s

/-- Something is done with the group. After the end of `with` it does not exist any more. -/
def use (s : St) (e : Group.Ev) : St :=
  if s.phase = .over then { s with ub := true } else settle { s with g := s.g.step e }

/-- Which events are possible. -/
def can (s : St) : Ev → Bool
  | .push a id => s.acts a && s.g.can (.push id) && !s.running.contains id
  | .cancel a _ | .reap a => s.acts a
  | .waitOne w order => s.phase == .inFunc && s.g.can (.waitOne w order)
  | .waitAll w => s.phase == .inFunc && s.g.can (.waitAll w)
  | .complete id _ => s.running.contains id
  | .funcEnds _ => s.phase == .inFunc && s.g.wait == none

def act (s : St) : Ev → St
  | .push _ id => { s.use (.push id) with running := id :: s.running }
  | .cancel _ ct => s.use (.cancel ct)
  | .reap _ => s.use .reap
  | .waitOne w order => s.use (.waitOne w order)
  | .waitAll w => s.use (.waitAll w)
  | .complete id o =>
    -- the promise is in the group, or it was destroyed and the end is not noticed
    let s := { s with running := s.running.filter (· ≠ id) }
    if s.g.can (.complete id o) then s.use (.complete id o) else s
  | .funcEnds x => settle { s with phase := .inExit, e := x, g := s.g.step (.exit 0 x.isSome) }

def step (s : St) (e : Ev) : St := if s.ub || !s.can e then s else s.act e

def steps (s : St) (es : List Ev) : St := es.foldl step s

/-- `with(wait_group(normal, except), func)` after the events. -/
def run (normal except : Nat) (es : List Ev) : St := steps { g := { normal, except } } es

end St

end Cobalt.Nurse
