/-!
# Model of the end of coroutines

Sources: `detail/promise.hpp:350-402`, `detail/task.hpp:349-395`, `detail/generator.hpp:385-433`,
`detail/detached.hpp:73-79`, `detail/main.hpp:89-100`, `detail/thread.hpp:79-88`,
`detail/with.hpp:77-135`, `detail/fork.hpp:139-170, 240`, `composition.hpp:130-175`,
`detail/wrapper.hpp:57-120`.

The rules of the language ([dcl.fct.def.coroutine]): an exception that leaves the body goes to
`unhandled_exception`. If that throws, the coroutine is at its final suspension and the exception
goes to whoever resumed it; nobody destroys the frame but by its handle. Otherwise `final_suspend`
is awaited. If this does not suspend the frame is destroyed.

Simplifications: one coroutine, which runs whenever it can. `return_value` does not throw. What
happens to memory used after being destroyed is the subject of other models (C59, C62, C71).
-/
namespace Cobalt.Fin

inductive Kind where
  | promise
  | task
  | generator
  | detached
  | main
  | thread
  | with_
  | fork
  | composition
  /-- `post_coroutine` -/
  | post
deriving DecidableEq, Repr

/-- An object refers to the coroutine and takes its result: a receiver, or the `with_impl`. -/
def Kind.owned : Kind → Bool
  | .promise | .task | .generator | .with_ => true
  | _ => false

inductive Frame where
  | alive
  | destroyed
  /-- at its final suspension, and nobody has its handle -/
  | lost
  /-- at its final suspension, to be destroyed by the awaiter -/
  | parked
  /-- the program has ended -/
  | terminated
  /-- destroyed while it runs: undefined behaviour -/
  | ub
deriving DecidableEq, Repr

inductive Place where
  /-- kept for who awaits -/
  | owner
  /-- thrown out of `resume` -/
  | resumer
  /-- `std::terminate` -/
  | terminate
deriving DecidableEq, Repr

structure St where
  kind : Kind
  /-- the object exists -/
  owner : Bool
  awaiter : Bool := false
  frame : Frame := .alive
  /-- where exceptions of the body went -/
  thrown : List (Nat × Place) := []
  /-- how often the awaiter was resumed, and how often the frame was destroyed -/
  resumed : Nat := 0
  destroyed : Nat := 0
deriving DecidableEq, Repr

def init (k : Kind) : St := { kind := k, owner := k.owned }

def St.destroy (s : St) : St := { s with frame := .destroyed, destroyed := s.destroyed + 1 }

def St.resumeAwaiter (s : St) : St :=
  if s.awaiter then { s with awaiter := false, resumed := s.resumed + 1 } else s

/-- `final_suspend` and awaiting it. -/
def St.final (s : St) : St :=
  match s.kind with
  -- does not suspend, if there is an owner and no awaiter; else `self_destroy`, and the awaiter
  -- is resumed
  | .promise | .task | .generator => s.destroy.resumeAwaiter
  -- `suspend_never`
  | .detached | .main | .thread | .post => s.destroy
  -- suspends; the awaiter destroys the frame (detail/with.hpp:116-135)
  | .with_ => ({ s with frame := .parked } : St).resumeAwaiter
  -- fork.hpp:146-163: either way
  | .fork => s.destroy
  -- composition.hpp:151-169
  | .composition => s.destroy

/-- The exception of the body. -/
def St.unhandled (s : St) (e : Nat) : St :=
  match s.kind with
  -- promise.hpp:355-361, task.hpp:387-393, generator.hpp:427-433
  | .promise | .task | .generator =>
    if s.owner then St.final { s with thrown := s.thrown ++ [(e, .owner)] }
    else { s with frame := .lost, thrown := s.thrown ++ [(e, .resumer)] }
  -- `throw;`
  | .detached | .main | .thread | .composition =>
    { s with frame := .lost, thrown := s.thrown ++ [(e, .resumer)] }
  -- with.hpp:78-81
  | .with_ => St.final { s with thrown := s.thrown ++ [(e, .owner)] }
  -- fork.hpp:240
  | .fork => { s with frame := .terminated, thrown := s.thrown ++ [(e, .terminate)] }
  -- wrapper.hpp:114-118: `destroy` of a coroutine that is not suspended, then `throw;`
  | .post => { s with frame := .ub, thrown := s.thrown ++ [(e, .resumer)] }

inductive Ev where
  /-- the owner goes: `detach`, or its destructor -/
  | detach
  /-- it is awaited -/
  | await
  /-- the awaiter goes on: it destroys what is parked -/
  | awaiterGoesOn
  /-- the body returns, or throws -/
  | ret
  | throws (e : Nat)
deriving DecidableEq, Repr

/-- Events that are not possible do nothing. An owner that is awaited does not go (C25). -/
def St.step (s : St) : Ev → St
  | .detach => if s.kind ≠ .with_ && !s.awaiter then { s with owner := false } else s
  | .await => if s.owner && !s.awaiter && s.frame = .alive then { s with awaiter := true } else s
  | .awaiterGoesOn => if s.frame = .parked then s.destroy else s
  | .ret => if s.frame = .alive then s.final else s
  | .throws e => if s.frame = .alive then s.unhandled e else s

def run (k : Kind) (es : List Ev) : St := es.foldl St.step (init k)

end Cobalt.Fin
