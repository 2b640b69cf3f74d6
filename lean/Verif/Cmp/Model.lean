/-!
# Model of operations written as coroutines

Sources: `include/boost/cobalt/composition.hpp`, `op.hpp`, `detail/handler.hpp`,
`detail/util.hpp` and `src/detail/util.cpp` (`self_destroy`).

`co_await op` makes an awaitable with a buffer and a memory resource, in the frame of the awaiting
coroutine (op.hpp:115-125). If `op::initiate` is a coroutine its frame is allocated from that
resource (composition.hpp:95-109), and its promise holds the handler, which owns the awaiting
coroutine.

Simplifications: the body is the list of its awaits, and how it ends. Only the accesses to memory
that matter for lifetimes are in the trace. The awaitable is a temporary, destroyed when the
awaiting coroutine goes on. The case of a composition awaited by another, which gives its own
resource on (composition.hpp:40-88), is not modelled.
-/
namespace Cobalt.Cmp

/-- What an operation awaited by the body does. -/
inductive Step where
  /-- completes while it is started -/
  | immediate
  /-- completes later -/
  | pending
deriving DecidableEq, Repr

/-- How the body ends. -/
inductive End where
  | ret (v : Nat)
  | throws
deriving DecidableEq, Repr

structure Prog where
  steps : List Step
  fin : End
deriving DecidableEq, Repr

/-- The platform and the size of the frame. -/
structure Cfg where
  /-- `BOOST_COBALT_NO_SELF_DELETE` is not set: `self_destroy` destroys at once -/
  selfDelete : Bool
  /-- the frame fits into the buffer of the awaitable -/
  fits : Bool
deriving DecidableEq, Repr

/-- What can be observed. -/
inductive Obs where
  /-- the awaiting coroutine goes on -/
  | resumed (e : End)
  /-- the awaiting coroutine is destroyed -/
  | callerGone
  /-- the frame of the composition is destroyed and freed -/
  | frameGone
  /-- memory is used which was freed -/
  | stale
  /-- an exception leaves the composition when nobody is there to take it: it goes to whoever
  runs the executor -/
  | escaped
deriving DecidableEq, Repr

inductive Caller where
  | waiting
  | goneOn
  | destroyed
deriving DecidableEq, Repr

inductive Frame where
  | suspended (rest : List Step)
  /-- at its final suspension, or having thrown -/
  | ended
  | freed
deriving DecidableEq, Repr

structure St where
  frame : Frame
  caller : Caller := .waiting
  /-- the destruction of the frame is posted (util.cpp:19-33) -/
  posted : Bool := false
  trace : List Obs := []
deriving DecidableEq, Repr

/-- The awaitable, with the buffer and the resource. -/
def St.opAlive (s : St) : Bool := s.caller = .waiting

def St.frameAlive (s : St) (c : Cfg) : Bool := s.frame ≠ .freed && (!c.fits || s.opAlive)

/-- Use of the frame. -/
def St.touchFrame (s : St) (c : Cfg) : St :=
  if s.frameAlive c then s else { s with trace := s.trace ++ [.stale] }

/-- Use of the awaitable. -/
def St.touchOp (s : St) : St :=
  if s.opAlive then s else { s with trace := s.trace ++ [.stale] }

/-- `operator delete` (composition.hpp:111-126): the resource is found in the memory before the
frame. -/
def St.free (s : St) (c : Cfg) : St :=
  let s := (s.touchFrame c).touchOp
  { s with frame := .freed, trace := s.trace ++ [.frameGone] }

def St.goOn (s : St) (e : End) : St :=
  { s with caller := .goneOn, trace := s.trace ++ [.resumed e] }

/-- `final_awaitable::await_suspend` (composition.hpp:151-169). The awaitable is part of the
frame. After `self_destroy` its member `handler` is used, and the flag it points to. The awaiting
coroutine goes on, either when `await_suspend` returns or when `initiate` does. -/
def St.finish (s : St) (c : Cfg) (v : Nat) : St :=
  let s := ({ s with frame := .ended } : St).touchFrame c
  let s := if c.selfDelete then s.free c else { s with posted := true }
  ((s.touchFrame c).touchOp).goOn (.ret v)

/-- The body runs. `unhandled_exception` throws (composition.hpp:136): the frame stays. While the
operation is started the exception goes to the awaiting coroutine (op.hpp:79-83), later to whoever
runs the executor. -/
def St.body (s : St) (c : Cfg) (fin : End) (starting : Bool) : List Step → St
  | .immediate :: r => s.body c fin starting r
  | .pending :: r => { s with frame := .suspended r }
  | [] =>
    match fin with
    | .ret v => s.finish c v
    | .throws =>
      let s := { s with frame := .ended }
      if starting then s.goOn .throws else { s with trace := s.trace ++ [.escaped] }

/-- `co_await op` -/
def start (c : Cfg) (p : Prog) : St :=
  St.body { frame := .suspended p.steps } c p.fin true p.steps

inductive Ev where
  /-- the pending operation completes -/
  | complete
  /-- it is destroyed, as when the executor is shut down -/
  | drop
  /-- the executor runs or destroys what was posted -/
  | posted
deriving DecidableEq, Repr

def St.step (s : St) (c : Cfg) (fin : End) : Ev → St
  | .complete =>
    match s.frame with
    | .suspended r => s.body c fin false r
    | _ => s
  | .drop =>
    match s.frame with
    -- the frame is destroyed: the handler in the promise destroys the awaiting coroutine, then
    -- the rest of the frame goes
    | .suspended _ =>
      let s : St := { s with caller := .destroyed, trace := s.trace ++ [.callerGone] }
      (s.touchFrame c).free c
    | _ => s
  | .posted => if s.posted then { (s.touchFrame c).free c with posted := false } else s

def run (c : Cfg) (p : Prog) (es : List Ev) : St :=
  es.foldl (fun s e => s.step c p.fin e) (start c p)

end Cobalt.Cmp
