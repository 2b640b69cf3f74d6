/-!
# Model of combinators whose children are destroyed

Sources: `detail/fork.hpp:45-58, 139-171` (the count of children, the end of one),
`detail/gather.hpp:73-131, 192-212`, `detail/join.hpp:76-166, 221-234`,
`detail/race.hpp:135-148, 168-285, 342-351`.

All children of the combinator are started and wait. A child is *lost* when its frame is destroyed
without having been resumed: the executor or a channel goes, or the coroutine behind an awaited
promise is destroyed (`detail/promise.hpp:363-373`).

Simplifications: children do not end inside of calls made by the combinator (see C13 and C59 for
that), there are no transactions, and awaitables that lost their coroutine ignore
`interrupt_await` (as promises and channels do). `race` has arguments with `interrupt_await` or not:
`working` is set in both cases (race.hpp:193-194).
-/
namespace Cobalt.Lost

inductive Kind where
  | gather
  | join
  | race
deriving DecidableEq, Repr

structure Cfg where
  kind : Kind
  n : Nat
  /-- the awaitable leaves its handler in the slot when its coroutine is destroyed; it points to
  what was destroyed -/
  dangles : Nat → Bool := fun _ => false

inductive CS where
  | waiting
  | done
  | lost
deriving DecidableEq, Repr

inductive Awaiter where
  | suspended
  /-- resumed; `bad`: a result that does not exist was read -/
  | resumed (bad : Bool)
  | destroyed
deriving DecidableEq, Repr

structure St where
  child : Nat → CS := fun _ => .waiting
  /-- `use_count` -/
  uses : Nat
  /-- `cancel[i]` is not null; always so for `gather` -/
  sig : Nat → Bool := fun _ => true
  index : Option Nat := none
  err : Option Nat := none
  /-- there is a result of child `i` -/
  res : Nat → Bool := fun _ => false
  awaiter : Awaiter := .suspended
  /-- how often the awaiter was resumed or destroyed -/
  ends : Nat := 0
  ub : Bool := false

def init (c : Cfg) : St := { uses := c.n }

def upd {α : Type} (f : Nat → α) (i : Nat) (a : α) : Nat → α := fun j => if j = i then a else f j

/-- Signals are sent to all children, `p` says which ones. -/
def St.emit (s : St) (c : Cfg) (p : Nat → Bool) : St :=
  { s with
    ub := s.ub || (List.range c.n).any fun j => p j && s.child j == .lost && c.dangles j }

/-- `interrupt_await` of race: calls through `working`, which points into the frames of the children
(race.hpp:174-194). -/
def St.interruptWorking (s : St) (c : Cfg) : St :=
  { s with ub := s.ub || (List.range c.n).any fun j => s.child j == .lost }

/-- `await_resume` reads a result that is not there. -/
def St.reads (s : St) (c : Cfg) : Bool :=
  match c.kind with
  -- gather.hpp:200-209
  | .gather => (List.range c.n).any fun j => !s.res j
  -- join.hpp:222-234
  | .join => s.err.isNone && (List.range c.n).any fun j => !s.res j
  -- race.hpp:343-351
  | .race => s.err.isNone && (List.range c.n).all fun j => !s.res j

/-- The child ends: with the last one the awaiter is resumed (fork.hpp:142-163). -/
def St.finish (s : St) (c : Cfg) (i : Nat) : St :=
  let s : St := { s with child := upd s.child i .done, uses := s.uses - 1 }
  if s.uses = 0 then { s with awaiter := .resumed (s.reads c), ends := s.ends + 1 } else s

/-- An outcome: the value does not matter, or an exception. -/
abbrev Out := Option Nat

/-- What the child does when its awaitable has completed. -/
def St.complete (s : St) (c : Cfg) (i : Nat) (o : Out) : St :=
  match c.kind with
  | .gather => ({ s with res := upd s.res i true } : St).finish c i
  | .join =>
    match o with
    | none => ({ s with res := upd s.res i true } : St).finish c i
    -- join.hpp:155-160
    | some e =>
      let s : St := { s with err := if s.err.isNone then some e else s.err }
      let s := s.emit c s.sig
      ({ s with sig := fun _ => false } : St).finish c i
  | .race =>
    -- race.hpp:216-242, 274
    let s : St :=
      if s.index.isNone then
        { s with index := some i, err := o, res := upd s.res i o.isNone }
      else s
    let s : St := { s with sig := upd s.sig i false }
    let s := s.interruptWorking c
    let s := s.emit c s.sig
    ({ s with sig := fun _ => false } : St).finish c i

inductive Ev where
  /-- the awaitable of a child completes -/
  | fin (i : Nat) (o : Out)
  /-- the frame of a child is destroyed -/
  | lost (i : Nat)
  /-- the combinator is cancelled, or interrupted -/
  | cancel
  | interrupt
deriving DecidableEq, Repr

/-- Events that are not possible do nothing; nothing happens after undefined behaviour. -/
def St.step (c : Cfg) (s : St) : Ev → St
  | .fin i o =>
    if !s.ub && decide (i < c.n) && s.child i == .waiting then s.complete c i o else s
  | .lost i =>
    if !s.ub && decide (i < c.n) && s.child i == .waiting then
      let s : St := { s with child := upd s.child i .lost, uses := s.uses - 1 }
      -- fork.hpp:52-56
      if s.uses = 0 then { s with awaiter := .destroyed, ends := s.ends + 1 } else s
    else s
  | .cancel => if !s.ub && s.awaiter == .suspended then s.emit c s.sig else s
  | .interrupt =>
    if !s.ub && s.awaiter == .suspended then
      match c.kind with
      | .race => s.interruptWorking c
      | _ => s
    else s

def run (c : Cfg) (es : List Ev) : St := es.foldl (St.step c) (init c)

end Cobalt.Lost
