/-!
# Model of the life of the coroutine of `with`

Sources: `include/boost/cobalt/detail/with.hpp:18-32` (`with_impl` has a reference to the promise and no
destructor), `86-103` (the end resumes `awaited_from`), `112-149` (`await_resume` destroys the frame,
`await_suspend` stores the awaiter and starts it), `unique_handle.hpp` (operations own the coroutine
that waits for them).

`with` is a coroutine. It is made, may be awaited, waits for operations, and ends. Meanwhile the operation
it waits for may be destroyed (with the executor, or the channel), which destroys the coroutine; and the
awaiter may be destroyed by its owner.

Simplifications: one awaiter, which owns the object `with_impl`; awaiting once more is an event of its own.
Calls of `func` and of the teardown are in the model of C24.
-/
namespace Cobalt.With.Life

/-- The frame of `with`. -/
inductive Frame where
  /-- suspended at its start, its arguments are in it -/
  | made
  /-- waits for an operation that owns it -/
  | waiting
  /-- suspended at its end -/
  | ended
  | destroyed
deriving DecidableEq, Repr

/-- The awaiter. -/
inductive Awaiter where
  /-- it runs and has the object `with_impl` -/
  | runs
  /-- it awaits -/
  | awaits
  /-- it was resumed with the result and has the object still -/
  | resumed
  /-- it was destroyed, or the object has gone out of scope -/
  | gone
deriving DecidableEq, Repr

structure St where
  frame : Frame := .made
  awaiter : Awaiter := .runs
  /-- how often the frame was destroyed -/
  destroyed : Nat := 0
  /-- how often the awaiter was resumed -/
  resumed : Nat := 0
  ub : Bool := false
deriving DecidableEq, Repr

inductive Ev where
  /-- the object is awaited -/
  | await
  /-- the operation completes; the coroutine ends or waits for another one -/
  | complete (ends : Bool)
  /-- the operation is destroyed -/
  | lose
  /-- the awaiter is destroyed, or the object goes out of scope -/
  | leave
deriving DecidableEq, Repr

/-- The coroutine ends: `awaited_from` is resumed (detail/with.hpp:86-103) and takes the result, which
destroys the frame (112-131). A destroyed awaiter cannot be resumed. -/
def St.finish (s : St) : St :=
  match s.awaiter with
  | .awaits => { s with frame := .destroyed, destroyed := s.destroyed + 1, awaiter := .resumed
                        resumed := s.resumed + 1 }
  | _ => { s with frame := .ended, ub := true }

/-- Events that are not possible do nothing; nothing happens after undefined behaviour. The coroutine
that is started waits for an operation first: one that does not is `await` and `complete true`. -/
def St.step (s : St) (e : Ev) : St :=
  if s.ub then s
  else match e with
    | .await =>
      match s.awaiter with
      | .runs => { s with frame := .waiting, awaiter := .awaits }
      -- the reference to the promise dangles
      | .resumed => { s with ub := true }
      | _ => s
    | .complete ends =>
      if s.frame = .waiting then (if ends then s.finish else s) else s
    | .lose =>
      if s.frame = .waiting then { s with frame := .destroyed, destroyed := s.destroyed + 1 } else s
    -- no destructor: the frame stays
    | .leave => { s with awaiter := .gone }

def run (es : List Ev) : St := es.foldl St.step {}

end Cobalt.With.Life
