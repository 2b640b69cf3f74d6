/-!
# Model of `promise`

Sources: `include/boost/cobalt/promise.hpp`, `include/boost/cobalt/detail/promise.hpp`.

A `promise` object is a receiver at an address. The frame of its coroutine points to
the receiver (`receiver`), the receiver points to that pointer in the frame
(`reference`). Both can dangle; using one that does is undefined (`ub`). Any number of
coroutines, promise objects and awaits.

Simplifications:
* Values and exceptions are numbers. A value that was moved from is `moved`
  (for types where moving is copying, read `moved` as the value itself).
* A moved-from `std::exception_ptr` is null.
* Addresses of promise objects are used again; identities of frames are not, so that
  access to a frame that is gone is always noticed.
* Destroying a promise and assigning to one are two events: `leave` sends the
  cancellation if the promise is attached, `drop` or `moveA` does the rest. Whatever
  happens inside the cancellation comes between the two.
* What an awaiting coroutine does after it is resumed are separate events.
* `promise_receiver::interrupt_await` (promise.hpp:268-272) cannot be reached from
  outside (the member is private) and is left out. So is assigning a promise to itself.
-/
namespace Cobalt.Prom

inductive Err where
  | user (e : Nat)
  | movedFrom
  | detached
  | alreadyAwaited
  | unexpected
deriving DecidableEq, Repr

/-- How a coroutine ends. -/
inductive Out where
  | val (v : Nat)
  | exc (e : Nat)
deriving DecidableEq, Repr

/-- What an await or `get` gives. -/
inductive Got where
  | val (v : Nat)
  | moved
  | err (e : Err)
deriving DecidableEq, Repr

/-- `promise` with its `promise_receiver` (detail/promise.hpp:45-46, 92, 110-111,
262-263; promise.hpp:77-78). `result`: `some none` is a moved-from value. `ref` is the
coroutine whose frame `reference` and `cancel_signal` point into. -/
structure Rec where
  result : Option (Option Nat) := none
  taken : Bool := false
  exc : Option Err := none
  done : Bool := false
  awaited : Option Nat := none
  ref : Option Nat := none
  attached : Bool := false
deriving DecidableEq, Repr

/-- The frame of a coroutine (`cobalt_promise_result::receiver`). `stuck`: an
exception escaped, the frame is never destroyed. -/
structure Frame where
  receiver : Option Nat
  stuck : Bool := false
deriving DecidableEq, Repr

/-- `promise_receiver::awaitable`; `got` is set when its `await_resume` has run. -/
structure Aw where
  self : Nat
  ex : Option Err := none
  got : Option Got := none
deriving DecidableEq, Repr

structure St where
  recv : Nat → Option Rec := fun _ => none
  frame : Nat → Option Frame := fun _ => none
  born : Nat → Bool := fun _ => false
  aw : Nat → Option Aw := fun _ => none
  /-- cancellations sent to each coroutine -/
  signals : Nat → Nat := fun _ => 0
  /-- awaits that have ended, newest first -/
  log : List (Nat × Got) := []
  /-- awaiting coroutines that were destroyed because the promise was -/
  killed : List Nat := []
  /-- promise objects between `leave` and `drop` or `moveA` -/
  leaving : Nat → Bool := fun _ => false
  ub : Bool := false

def upd {α : Type} (f : Nat → α) (i : Nat) (a : α) : Nat → α := fun j => if j = i then a else f j

@[simp, grind =] theorem upd_apply {α : Type} (f : Nat → α) (i : Nat) (a : α) (j : Nat) :
    upd f i a j = if j = i then a else f j := rfl

namespace St

/-- detail/promise.hpp:48-53 and 93-103. `none`: there is no result (assertion). -/
def getResult (R : Rec) : Option (Rec × Got) :=
  match R.exc with
  | some e => some (if R.done then { R with taken := true } else { R with exc := none }, .err e)
  | none =>
    match R.result with
    | none => none
    | some none => some ({ R with taken := true }, .moved)
    | some (some v) => some ({ R with taken := true, result := some none }, .val v)

/-- `await_resume` of awaitable `a` (lines 212-219). -/
def resumeAw (s : St) (a : Nat) : St :=
  match s.aw a with
  | none => { s with ub := true }
  | some w =>
    match w.ex with
    | some e => { s with aw := upd s.aw a (some { w with got := some (.err e) }), log := (a, .err e) :: s.log }
    | none =>
      match s.recv w.self with
      | none => { s with ub := true }
      | some R =>
        match getResult R with
        | none => { s with ub := true }
        | some (R', g) => { s with
            recv := upd s.recv w.self (some R')
            aw := upd s.aw a (some { w with got := some g })
            log := (a, g) :: s.log }

/-- The coroutine `c` ends: lines 55-65, 104-108, 284-294, 355-361, the final awaitable
(375-400) and the destructor (363-373). -/
def finish (s : St) (c : Nat) (o : Out) : St :=
  match s.frame c with
  | none => { s with ub := true }
  | some f =>
    match f.receiver with
    | none =>
      match o with
      | .val _ => { s with frame := upd s.frame c none }
      -- the exception leaves `resume`
      | .exc _ => { s with frame := upd s.frame c (some { f with stuck := true }) }
    | some r =>
      match s.recv r with
      | none => { s with ub := true }
      | some R =>
        let R := match o with
          | .val v => { R with result := some (some v), done := true }
          | .exc e => { R with exc := some (.user e), done := true }
        let s := { s with frame := upd s.frame c none, recv := upd s.recv r (some { R with awaited := none }) }
        match R.awaited with
        | none => s
        | some a => resumeAw s a

/-- The frame of `c` is destroyed while it is suspended (the destructor,
detail/promise.hpp:363-373). -/
def kill (s : St) (c : Nat) : St :=
  match s.frame c with
  | none => { s with ub := true }
  | some f =>
    match f.receiver with
    | none => { s with frame := upd s.frame c none }
    | some r =>
      match s.recv r with
      | none => { s with ub := true }
      | some R => { s with
          frame := upd s.frame c none
          recv := upd s.recv r (some { R with
            exc := if R.done = false ∧ R.exc = none then some .unexpected else R.exc, done := true, awaited := none })
          killed := match R.awaited with | some a => a :: s.killed | none => s.killed }

/-- `promise::cancel` (promise.hpp:112-118). -/
def cancel (s : St) (r : Nat) : St :=
  match s.recv r with
  | none => { s with ub := true }
  | some R =>
    if R.done then s else
    match R.ref with
    | none => { s with ub := true }
    | some c =>
      match s.frame c with
      | none => { s with ub := true }
      | some f => if f.receiver = some r then { s with signals := upd s.signals c (s.signals c + 1) } else s

/-- `~promise_receiver` (detail/promise.hpp:158-162) and that of `awaited_from`. -/
def destroyRec (s : St) (r : Nat) : St :=
  match s.recv r with
  | none => { s with ub := true }
  | some R =>
    let killed := match R.awaited with | some a => a :: s.killed | none => s.killed
    if R.done then { s with recv := upd s.recv r none, killed := killed } else
    match R.ref with
    | none => { s with ub := true }
    | some c =>
      match s.frame c with
      | none => { s with ub := true }
      | some f => { s with
          recv := upd s.recv r none, killed := killed
          frame := if f.receiver = some r then upd s.frame c (some { f with receiver := none }) else s.frame }

/-- The move constructor, from `r` to `r'` (detail/promise.hpp:120-132,
promise.hpp:87-90). -/
def moveConstruct (s : St) (r r' : Nat) : St :=
  match s.recv r with
  | none => { s with ub := true }
  | some R =>
    let lhs := { R with
      result := R.result.map fun _ => none, exc := none, done := true, awaited := none, attached := false }
    if R.done = false ∧ R.exc = none then
      match R.ref with
      | none => { s with ub := true }
      | some c =>
        match s.frame c with
        | none => { s with ub := true }
        | some f => { s with
            frame := upd s.frame c (some { f with receiver := some r' })
            recv := upd (upd s.recv r (some { lhs with exc := some .movedFrom })) r' (some R) }
    else { s with recv := upd (upd s.recv r (some lhs)) r' (some R) }

/-- The first lines of the move assignment to `r` (detail/promise.hpp:136-139). -/
def unlink (s : St) (r : Nat) : St :=
  match s.recv r with
  | none => { s with ub := true }
  | some R =>
    match R.ref with
    | none => s
    | some c =>
      match s.frame c with
      | none => { s with ub := true }
      | some f => if f.receiver = some r then { s with frame := upd s.frame c (some { f with receiver := none }) } else s

/-- The move assignment `r = std::move(r')` after the cancellation
(detail/promise.hpp:134-155, promise.hpp:92-101). -/
def moveAssign (s : St) (r r' : Nat) : St :=
  let s := unlink s r
  if s.ub then s else
  match s.recv r, s.recv r' with
  | some old, some R =>
    let killed := match old.awaited with | some a => a :: s.killed | none => s.killed
    let lhs := { R with result := R.result.map fun _ => none, exc := none, awaited := none, attached := false }
    if R.done = false ∧ R.exc = none then
      match R.ref with
      | none => { s with ub := true }
      | some c =>
        match s.frame c with
        | none => { s with ub := true }
        | some f => { s with
            frame := upd s.frame c (some { f with receiver := some r })
            recv := upd (upd s.recv r' (some { lhs with exc := some .movedFrom })) r (some R), killed := killed }
    else { s with recv := upd (upd s.recv r' (some lhs)) r (some R), killed := killed }
  | _, _ => { s with ub := true }

/-- `co_await` of promise `r` by `a` (detail/promise.hpp:187-210). -/
def await (s : St) (a r : Nat) : St :=
  match s.recv r with
  | none => { s with ub := true }
  | some R =>
    if R.done then resumeAw { s with aw := upd s.aw a (some { self := r }) } a
    else if R.awaited ≠ none then
      resumeAw { s with aw := upd s.aw a (some { self := r, ex := some .alreadyAwaited }) } a
    else { s with aw := upd s.aw a (some { self := r }), recv := upd s.recv r (some { R with awaited := some a }) }

/-- `interrupt_await` of awaitable `a` (lines 252-259). -/
def interrupt (s : St) (a : Nat) : St :=
  match s.aw a with
  | none => { s with ub := true }
  | some w =>
    match s.recv w.self with
    | none => { s with ub := true }
    | some R =>
      let s := { s with aw := upd s.aw a (some { w with ex := some .detached }) }
      match R.awaited with
      | none => s
      | some b => resumeAw { s with recv := upd s.recv w.self (some { R with awaited := none }) } b

end St

inductive Ev where
  /-- a coroutine `c` begins; its promise is at `r` -/
  | create (c r : Nat)
  /-- `promise(noop{v})` -/
  | noop (r v : Nat)
  | finish (c : Nat) (o : Out)
  | await (a r : Nat)
  | interrupt (a : Nat)
  /-- `promise r'(std::move(r))` -/
  | moveC (r r' : Nat)
  /-- `r = std::move(r')` -/
  | moveA (r r' : Nat)
  | detach (r : Nat)
  | attach (r : Nat)
  | cancel (r : Nat)
  /-- the first part of destroying `r` or assigning to it -/
  | leave (r : Nat)
  | drop (r : Nat)
  /-- the frame of `c` is destroyed from outside -/
  | kill (c : Nat)
  /-- `r.get()` -/
  | get (r : Nat)
deriving DecidableEq, Repr

/-- Which moves are possible: objects exist or do not yet. An awaitable is interrupted
only while the promise it refers to exists. -/
def St.can (s : St) : Ev → Bool
  | .create c r => !s.born c && (s.recv r).isNone
  | .noop r _ => (s.recv r).isNone
  | .finish c _ | .kill c => match s.frame c with
    | some f => !f.stuck
    | none => false
  | .await a r => (s.aw a).isNone && (s.recv r).isSome
  | .interrupt a => match s.aw a with
    | some w => (s.recv w.self).isSome && !s.killed.contains a
    | none => false
  | .moveC r r' => (s.recv r).isSome && (s.recv r').isNone
  | .moveA r r' => s.leaving r && (s.recv r).isSome && (s.recv r').isSome && r != r'
  | .drop r => s.leaving r && (s.recv r).isSome
  | .detach r | .attach r | .cancel r | .leave r | .get r => (s.recv r).isSome

namespace St

def setAttached (s : St) (r : Nat) (b : Bool) : St :=
  match s.recv r with
  | none => { s with ub := true }
  | some R => { s with recv := upd s.recv r (some { R with attached := b }) }

/-- `if (attached_) cancel();` (promise.hpp:64-65 and 96-97). -/
def leave (s : St) (r : Nat) : St :=
  match s.recv r with
  | none => { s with ub := true }
  | some R => if R.attached then cancel { s with leaving := upd s.leaving r true } r
    else { s with leaving := upd s.leaving r true }

/-- One event. Nothing changes after undefined behaviour. -/
def step (s : St) (e : Ev) : St :=
  if s.ub || !s.can e then s else
  match e with
  | .create c r => { s with
      born := upd s.born c true, frame := upd s.frame c (some { receiver := some r })
      recv := upd s.recv r (some { ref := some c, attached := true }) }
  | .noop r v => { s with recv := upd s.recv r (some { result := some (some v), done := true }) }
  | .finish c o => finish s c o
  | .await a r => await s a r
  | .interrupt a => interrupt s a
  | .moveC r r' => moveConstruct s r r'
  | .moveA r r' => moveAssign { s with leaving := upd s.leaving r false } r r'
  | .detach r => setAttached s r false
  | .attach r => setAttached s r true
  | .cancel r => cancel s r
  | .leave r => leave s r
  | .drop r => destroyRec { s with leaving := upd s.leaving r false } r
  | .kill c => kill s c
  | .get r =>
    -- promise.hpp:52-56
    match s.recv r with
    | none => { s with ub := true }
    | some R => if R.done then
        match getResult R with
        | none => { s with ub := true }
        | some (R', _) => { s with recv := upd s.recv r (some R') }
      else { s with ub := true }

def steps (s : St) (es : List Ev) : St := es.foldl step s

def run (es : List Ev) : St := steps {} es

end St

/-- `ready()` (promise.hpp:122). -/
def Rec.ready (R : Rec) : Bool := R.done

/-- `operator bool` (lines 126-129). -/
def Rec.toBool (R : Rec) : Bool := !R.done || !R.taken

end Cobalt.Prom
