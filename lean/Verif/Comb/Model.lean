/-!
# Model of the combinators `gather`, `join` and `race`

Sources: `include/boost/cobalt/detail/fork.hpp` (the shared state and the child
coroutines), `detail/gather.hpp`, `detail/join.hpp`, `detail/race.hpp`.

Every child is a coroutine `await_impl` that awaits one awaitable. The code of the
combinator runs until it calls out: `await_ready`, `await_suspend`,
`interrupt_await` of a child's awaitable, or `emit` on a child's cancellation
signal. During each such call the environment may do anything: let children
complete, cancel or interrupt the combinator, begin transactions, nested to any
depth. `stack` holds the code that is waiting for a call to return, innermost
first. An event is one move of the environment.

Simplifications:
* Values and exceptions are numbers; `index` is `none` for `size_t(-1)`.
* A signal sent to a child that is not suspended in its awaitable has no effect
  (`fork.hpp:166-171` clears the slot when the child ends; awaitables clear it
  when they complete).
* The steps in `await_ready` and in `await_suspend` form one loop: nothing runs
  between the two, and the child that was found not to be ready is resumed first
  (gather.hpp:144-170, join.hpp:173-199, race.hpp:296-323).
* The memory of a finished child frame stays as it is: `done()` on a frame that was
  destroyed while suspended at its final point gives true, on a frame that ran off
  its end (`fork.hpp:142-145`) it gives anything, see `Ev.ret` and `off`.
* Copying results does not throw. A `void` result is a value like any other, except
  where `race` treats it differently.
-/
namespace Cobalt.Comb

/-- How an awaitable ends. -/
inductive Out where
  | ok (v : Nat)
  | err (e : Nat)
deriving DecidableEq, Repr

inductive Kind where
  | gather | join | race
deriving DecidableEq, Repr

/-- The arguments. `order` is the order in which children are started: for `gather`
and `join` 0, 1, ..., n-1, for `race` a permutation (`left_race`: the identity). -/
structure Cfg where
  kind : Kind
  n : Nat
  order : List Nat
  /-- The awaitable has `interrupt_await` (forward_cancellation.hpp:20-23). -/
  intr : Nat → Bool := fun _ => true
  /-- The result type of the child is `void`. -/
  void : Nat → Bool := fun _ => false
  /-- All of them are. -/
  allVoid : Bool := false
  ranged : Bool := false
  /-- The cancellation type sent to losers of a race or after a failure of a join
  (join.hpp:81: `all`). -/
  ct : Nat := 7

/-- A child: not started; inside its `await_ready`; suspended in its awaitable;
running the code after that; finished. -/
inductive CS where
  | idle | asking | waiting | running | finished
deriving DecidableEq, Repr

/-- The awaiter: before, while starting children, suspended, resumed by the last
child, or continuing without having been suspended. -/
inductive Phase where
  | before | starting | suspended | resumed | direct
deriving DecidableEq, Repr

/-- What a loop over the children is followed by. -/
inductive Cont where
  /-- the end of child `i`; `start`: it is being started -/
  | finish (i : Nat) (start : Bool)
  /-- the end of `begin_transaction` -/
  | txn (i : Nat)
  /-- the end of `await_suspend` (join.hpp:201-219) -/
  | startEnd
  /-- return to the caller: an outside cancellation or `interrupt_await` -/
  | ext
deriving DecidableEq, Repr

/-- Code waiting for a call to return. -/
inductive Frame where
  | asking (k : Nat)
  | starting (k : Nat)
  /-- `since`: how many interruptions had been made, or signals been sent, when the
  loop began (ghost). -/
  | intr (k : Nat) (c : Cont) (since : Nat)
  | emit (k : Nat) (c : Cont) (ct : Nat) (since : Nat)
deriving DecidableEq, Repr

structure St where
  child : Nat → CS := fun _ => .idle
  /-- `use_count` (fork.hpp:49-56) -/
  uses : Nat := 0
  /-- the frame ran off its end instead of being destroyed at its final point -/
  off : Nat → Bool := fun _ => false
  /-- `cancel[i]` is not null; for `gather`: the slot has been connected -/
  sig : Nat → Bool := fun _ => false
  /-- `working[i]` is not null -/
  working : Nat → Bool := fun _ => false
  index : Option Nat := none
  err : Option Nat := none
  /-- `result` of `gather` and `join` -/
  res : Nat → Option Out := fun _ => none
  /-- `result` of `race` -/
  result : Option (Nat × Nat) := none
  todo : List Nat := []
  phase : Phase := .before
  stack : List Frame := []
  ub : Bool := false
  /-- signals sent and interruptions made, newest first -/
  sent : List (Nat × Nat) := []
  intd : List Nat := []
  resumes : Nat := 0

def upd {α : Type} (f : Nat → α) (i : Nat) (a : α) : Nat → α := fun j => if j = i then a else f j

@[simp, grind =] theorem upd_apply {α : Type} (f : Nat → α) (i : Nat) (a : α) (j : Nat) :
    upd f i a j = if j = i then a else f j := rfl

namespace St

/-- The first `j` with `k ≤ j < n` and `p j`. -/
def next (n k : Nat) (p : Nat → Bool) : Option Nat := (List.range' k (n - k)).find? p

/-- Whether `interrupt_await` of the combinator calls that of child `j`:
gather.hpp:73-92 and 293-302, join.hpp:95-115 and 380-393 (the ranged one tests
`cancel[0]` for every child), race.hpp:143-148 and 480-486. -/
def hit (c : Cfg) (s : St) (j : Nat) : Bool :=
  match c.kind with
  | .gather => c.intr j
  | .join => c.intr j && (if c.ranged then s.sig 0 else s.sig j)
  | .race => c.intr j && s.working j

/-- The loop of `interrupt_await` from child `k` on, up to the next call. -/
def scanIntr (c : Cfg) (s : St) (k : Nat) (co : Cont) (since : Nat) : St × Bool :=
  match next c.n k (hit c s) with
  | some j => ({ s with intd := j :: s.intd, stack := .intr j co since :: s.stack }, true)
  | none => (s, false)

/-- The loop that sends a signal from child `k` on, up to the next call that
reaches an awaitable. `cancel_all` sets the pointers to null (join.hpp:76-91 and
373-378, race.hpp:135-141 and 473-479), the handlers for outside cancellation do
not (gather.hpp:176-182, join.hpp:208-215, race.hpp:329-336). -/
def scanEmit (c : Cfg) (s : St) (k : Nat) (co : Cont) (ct since : Nat) : St × Bool :=
  match next c.n k (fun j => s.sig j && s.child j == .waiting) with
  | some j =>
    ({ s with
        sig := if co = .ext then s.sig else fun x => if k ≤ x ∧ x ≤ j then false else s.sig x
        sent := (j, ct) :: s.sent
        stack := .emit j co ct since :: s.stack }, true)
  | none =>
    ({ s with sig := if co = .ext then s.sig else fun x => if k ≤ x then false else s.sig x }, false)

/-- The end of child `i` (fork.hpp:139-172): the last one resumes the awaiter, if
that has been suspended. -/
def finish (s : St) (i : Nat) : St :=
  let s := { s with
    child := upd s.child i .finished
    working := upd s.working i false
    off := upd s.off i (s.uses != 1)
    uses := s.uses - 1 }
  if s.uses = 0 ∧ s.phase = .suspended then { s with phase := .resumed, resumes := s.resumes + 1 } else s

/-- The end of `await_suspend` (gather.hpp:172-187, join.hpp:204-219,
race.hpp:325-340). -/
def endStart2 (s : St) : St :=
  if s.uses = 0 then { s with phase := .direct } else { s with phase := .suspended }

/-- `join` sends signals once more if a child failed (join.hpp:201-202). -/
def endStart (c : Cfg) (s : St) : St :=
  if c.kind = .join ∧ s.err ≠ none then
    let r := scanEmit c s 0 .startEnd c.ct s.sent.length
    if r.2 then r.1 else endStart2 r.1
  else endStart2 s

/-- Start the next child: create its coroutine and call `await_ready`
(gather.hpp:96-101, join.hpp:119-124, race.hpp:169-207). -/
def startNext (c : Cfg) (s : St) : St :=
  match s.todo with
  | [] => endStart c s
  | i :: rest => { s with
      child := upd s.child i .asking, uses := s.uses + 1, working := upd s.working i true
      todo := rest, stack := .asking i :: s.stack }

/-- Child `i` has been started, what next. `race` does not start others if the
first child leaves nothing outstanding (race.hpp:296-313) or if a later one is
`done` (lines 315-323); `d` is what `done()` gives if that is not determined. -/
def afterStart (c : Cfg) (s : St) (i : Nat) (d : Bool) : St :=
  match c.kind with
  | .race =>
    if c.order.head? = some i then
      if s.uses = 0 then { s with phase := .direct } else startNext c s
    else
      let done := if s.child i = .finished then (if s.off i then d else true) else false
      if done then endStart c s else startNext c s
  | _ => startNext c s

/-- After the loop of `cancel_all`. -/
def done (c : Cfg) (s : St) (co : Cont) (d : Bool) : St :=
  match co with
  | .finish i start => let s := finish s i; if start then afterStart c s i d else s
  | .txn _ => s
  | .startEnd => endStart2 s
  | .ext => s

def contEmit (c : Cfg) (s : St) (k : Nat) (co : Cont) (ct since : Nat) (d : Bool) : St :=
  let r := scanEmit c s k co ct since
  if r.2 then r.1 else done c r.1 co d

/-- `interrupt_await`, and for `race` the rest of `cancel_all` (race.hpp:135-141). -/
def contIntr (c : Cfg) (s : St) (k : Nat) (co : Cont) (since : Nat) (d : Bool) : St :=
  let r := scanIntr c s k co since
  if r.2 then r.1 else if co = .ext then r.1 else contEmit c r.1 0 co c.ct r.1.sent.length d

/-- A race records the outcome of child `i` after it was suspended: race.hpp:216-242
and 540-563. -/
def raceSuspended (c : Cfg) (s : St) (i : Nat) (o : Out) : St :=
  if c.void i then
    let s := if s.index = none then
        { s with index := some i, err := match o with | .err e => some e | .ok _ => s.err }
      else s
    match o with
    | .ok v => if !c.allVoid ∧ s.index = some i then { s with result := some (i, v) } else s
    | .err _ => s
  else
    let s := if s.index = none then { s with index := some i } else s
    if s.index = some i then
      match o with
      | .ok v => { s with result := some (i, v) }
      | .err e => { s with err := some e }
    else s

/-- A race records the outcome of child `i` that was ready: race.hpp:244-273 and
565-590 (the ranged race of void awaitables does not look at the index). -/
def raceReady (c : Cfg) (s : St) (i : Nat) (o : Out) : St :=
  let s := if s.index = none then { s with index := some i } else s
  if s.index = some i ∨ (c.ranged ∧ c.void i) then
    match o with
    | .ok v => if c.ranged ∧ c.void i then s else { s with result := some (i, v) }
    | .err e => { s with err := some e }
  else s

/-- The rest of `await_impl` of child `i` once its awaitable gave `o`
(gather.hpp:102-132, join.hpp:125-161, race.hpp:208-276). -/
def complete (c : Cfg) (s : St) (i : Nat) (o : Out) (ready : Bool) (d : Bool) : St :=
  let s := { s with child := upd s.child i .running }
  match c.kind with
  | .gather => done c { s with res := upd s.res i (some o) } (.finish i ready) d
  | .join =>
    match o with
    | .ok v => done c { s with res := upd s.res i (some (.ok v)) } (.finish i ready) d
    | .err e =>
      contEmit c { s with err := if s.err = none then some e else s.err } 0 (.finish i ready) c.ct s.sent.length d
  | .race =>
    let s := if ready then raceReady c s i o else raceSuspended c s i o
    contIntr c { s with sig := upd s.sig i false } 0 (.finish i ready) s.intd.length d

/-- `await_ready` or `await_suspend` of child `i` throws (gather.hpp:128-131,
join.hpp:155-160, race.hpp:277-284: no `cancel_all`). -/
def thrown (c : Cfg) (s : St) (i : Nat) (e : Nat) (d : Bool) : St :=
  let s := { s with child := upd s.child i .running }
  match c.kind with
  | .gather => done c { s with res := upd s.res i (some (.err e)) } (.finish i true) d
  | .join =>
    contEmit c { s with err := if s.err = none then some e else s.err } 0 (.finish i true) c.ct s.sent.length d
  | .race =>
    let s := if s.index = none then { s with index := some i } else s
    let s := if s.index = some i then { s with err := some e } else s
    done c s (.finish i true) d

end St

/-- The moves of the environment. `d` is the answer of `done()` on a destroyed
frame, should the code that runs next ask. -/
inductive Ev where
  /-- the combinator is awaited -/
  | begin
  /-- `await_ready` of child `i` returns true and `await_resume` gives `o` -/
  | ready (i : Nat) (o : Out) (d : Bool)
  /-- `await_ready` of child `i` returns false; `await_suspend` is called -/
  | notReady (i : Nat)
  /-- one of these throws -/
  | thrown (i : Nat) (e : Nat) (d : Bool)
  /-- the awaitable of child `i`, which is suspended, completes -/
  | fin (i : Nat) (o : Out)
  /-- it begins a transaction -/
  | txn (i : Nat)
  /-- the innermost call returns -/
  | ret (d : Bool)
  /-- the awaiting coroutine is sent a cancellation -/
  | cancel (ct : Nat)
  /-- `interrupt_await` of the combinator is called -/
  | interrupt
deriving DecidableEq, Repr

/-- Is child `i` inside `begin_transaction`? -/
def St.inTxn (s : St) (i : Nat) : Bool :=
  s.stack.any fun
    | .intr _ (.txn j) _ => j == i
    | .emit _ (.txn j) _ _ => j == i
    | _ => false

/-- Which moves are possible. An awaitable does not complete while it is inside
`begin_transaction`. -/
def St.can (c : Cfg) (s : St) : Ev → Bool
  | .begin => s.phase == .before
  | .ready i _ _ => s.stack.head? == some (.asking i)
  | .notReady i => s.stack.head? == some (.asking i)
  | .thrown i _ _ => s.stack.head? == some (.asking i) ||
      (s.stack.head? == some (.starting i) && s.child i == .waiting)
  | .fin i _ => s.child i == .waiting && !s.inTxn i
  | .txn i => c.kind == .race && s.child i == .waiting && !s.inTxn i
  | .ret _ => match s.stack with
    | [] => false
    | .asking _ :: _ => false
    | _ => true
  | .cancel _ => s.phase == .suspended
  | .interrupt => s.phase == .starting || s.phase == .suspended

namespace St

/-- Does the interrupting loop look at the combinator again after child `k`? -/
def looksOn (c : Cfg) (k : Nat) : Bool :=
  match c.kind with
  | .race => decide (k + 1 < c.n)
  | _ => (next c.n (k + 1) c.intr).isSome

/-- One move. Moves that are not possible change nothing; nothing changes after
undefined behaviour. -/
def step (c : Cfg) (s : St) (e : Ev) : St :=
  if s.ub || !s.can c e then s else
  match e with
  | .begin =>
    let s := { s with phase := .starting, todo := c.order }
    -- `last_forked.release()` on an empty `fork` (gather.hpp:152, join.hpp:181);
    -- `race` throws before (race.hpp:61)
    if c.order = [] then { s with ub := true } else startNext c s
  | .ready i o d => complete c { s with stack := s.stack.tail } i o true d
  | .notReady i => { s with
      child := upd s.child i .waiting, sig := upd s.sig i true, stack := .starting i :: s.stack.tail }
  | .thrown i e d => St.thrown c { s with stack := s.stack.tail } i e d
  | .fin i o => complete c s i o false false
  | .txn i =>
    -- race.hpp:196-203: throws if there is a result
    if s.index = none then contIntr c { s with sig := upd s.sig i false, index := some i } 0 (.txn i) s.intd.length false
    else s
  | .ret d =>
    match s.stack with
    | [] => s
    | .asking _ :: _ => s
    | .starting k :: rest => afterStart c { s with stack := rest } k d
    | .intr k co since :: rest =>
      if co = .ext ∧ s.phase = .resumed ∧ looksOn c k then { s with ub := true }
      else contIntr c { s with stack := rest } (k + 1) co since d
    | .emit k co ct since :: rest =>
      if co = .ext ∧ s.phase = .resumed ∧ k + 1 < c.n then { s with ub := true }
      else contEmit c { s with stack := rest } (k + 1) co ct since d
  | .cancel ct => contEmit c s 0 .ext ct s.sent.length false
  | .interrupt => contIntr c s 0 .ext s.intd.length false

def steps (c : Cfg) (s : St) (es : List Ev) : St := es.foldl (step c) s

end St

/-- What `co_await` of the combinator gives. -/
inductive Res where
  | values (l : List Out)
  | thrown (e : Nat)
  | winner (i : Nat) (v : Option Nat)
  | undefined
deriving DecidableEq, Repr

/-- `await_resume` (gather.hpp:192-212 and 387-415, join.hpp:221-234 and 519-537,
race.hpp:342-351 and 653-662). -/
def St.resume (c : Cfg) (s : St) : Res :=
  match c.kind with
  | .gather =>
    if (List.range c.n).all fun i => (s.res i).isSome then .values ((List.range c.n).filterMap s.res)
    else .undefined
  | .join =>
    match s.err with
    | some e => .thrown e
    | none =>
      if (List.range c.n).all fun i => (s.res i).isSome then .values ((List.range c.n).filterMap s.res)
      else .undefined
  | .race =>
    match s.err with
    | some e => .thrown e
    | none =>
      if c.allVoid then
        match s.index with
        | some i => .winner i none
        | none => .undefined
      else
        match s.result, s.index with
        | some (i, v), some j => .winner (if c.ranged then j else i) (some v)
        | _, _ => .undefined

/-- `await_resume(as_tuple_tag)` of race (race.hpp:353-359 and 664-670): the
exception and what the result gives; `undefined` if an empty result is read. -/
inductive Tup where
  | pair (e : Option Nat) (r : Option (Nat × Option Nat))
  | undefined
deriving DecidableEq, Repr

def St.resumeTuple (c : Cfg) (s : St) : Tup :=
  if c.allVoid then .pair s.err (s.index.map fun i => (i, none))
  else match s.result, s.index with
    | some (i, v), some j => .pair s.err (some (if c.ranged then j else i, some v))
    | _, _ => .undefined

end Cobalt.Comb
