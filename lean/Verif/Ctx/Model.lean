/-!
# Model of stackful coroutines

Sources: `include/boost/cobalt/experimental/context.hpp`, `experimental/frame.hpp`.

`make_context` puts the frame with the promise on the stack of a new fiber. `coroutine_handle`s
to the frame work because it begins with two function pointers, as frames of the usual compilers
do.

Simplifications: the body is the list of its awaits, each with what its awaiter does, and an
end; returning and an uncaught exception do not differ. Whether a promise suspends initially is
the first await of the body (`lazy` is the case the code treats specially, `std::suspend_always`).
Resuming or destroying a coroutine which is running or gone, and resuming one which is suspended
finally, are not legal for any coroutine and not modelled. That a fiber frees its stack when its
function returns, and unwinds it when the `fiber` object owning it is destroyed, is as Boost.Context
documents.
-/
namespace Cobalt.Ctx

/-- What an awaiter does. -/
inductive Aw where
  /-- `await_ready` is true -/
  | ready
  /-- `await_suspend` suspends -/
  | suspend
  /-- `await_suspend` returns false -/
  | refuse
  /-- `await_suspend` throws -/
  | throws
deriving DecidableEq, Repr

/-- What the awaiter of `final_suspend()` does. -/
inductive Fin where
  /-- ready, as `std::suspend_never` -/
  | never
  /-- suspends -/
  | suspend
  /-- `await_suspend` returns false -/
  | refuse
  /-- `await_suspend` destroys the coroutine and resumes another or none -/
  | destroy
deriving DecidableEq, Repr

/-- A coroutine. -/
structure Prog where
  lazy_ : Bool
  awaits : List Aw
  fin : Fin
deriving DecidableEq, Repr

/-- What can be observed. -/
inductive Obs where
  /-- the local variables of the body are destroyed -/
  | locals
  /-- the promise is destroyed -/
  | promise
  /-- the memory of the coroutine is freed -/
  | freed
  /-- an exception of an awaiter is thrown into the body -/
  | caught
  /-- it is thrown to whoever resumed the coroutine -/
  | threw
  /-- `done()` says -/
  | done (b : Bool)
  /-- freed memory is used -/
  | ub
deriving DecidableEq, Repr

/-- Where a coroutine is when it does not run. -/
inductive Pc where
  /-- not started -/
  | start
  /-- suspended at an await, the rest being to come -/
  | at_ (rest : List Aw)
  | final
  | gone
deriving DecidableEq, Repr

/-- What the owner of the handle does. -/
inductive Ev where
  | resume
  | destroy
  | done
deriving DecidableEq, Repr

/-! ## The code -/

/-- How the fiber switches back. -/
inductive Switch where
  /-- from `do_await`, with `after_resume` set for this awaiter -/
  | await (a : Aw) (rest : List Aw)
  /-- from `do_await` of `final_suspend` -/
  | fin
  /-- the function returned -/
  | returned
deriving DecidableEq, Repr

/-- The fiber runs until it switches back (`do_await` :91-102, `invoker::operator()` :320-347).
Awaiters which are ready are passed. At the end the body's locals go, then the awaiter of
`final_suspend` is awaited. -/
def fiber (fin : Fin) : List Aw → Switch × List Obs
  | .ready :: rest => fiber fin rest
  | a :: rest => (.await a rest, [])
  | [] => (match fin with | .never => .returned | _ => .fin, [.locals])

theorem fiber_rest {fin : Fin} {l : List Aw} {a : Aw} {r : List Aw} {o : List Obs}
    (h : fiber fin l = (.await a r, o)) : r.length < l.length := by
  induction l with
  | nil => cases fin <;> simp [fiber] at h
  | cons x l ih =>
    cases x
    · simp only [fiber] at h
      have := ih h
      simp only [List.length_cons]; omega
    all_goals
      simp only [fiber, Prod.mk.injEq, Switch.await.injEq] at h
      simp [← h.1.2]

/-- `context_frame::destroy` (:49-53): the frame with the promise is destroyed, then `c`
unwinds what is left on the fiber and frees its stack. -/
def destroyFrom : Pc → List Obs
  | .start => [.promise, .freed]
  | .at_ _ => [.promise, .locals, .freed]
  | .final => [.promise, .freed]
  | .gone => []

/-- `context_frame::resume` (:43-48) of a fiber with the awaits to come. When the fiber has
returned its stack is free, but `callee`, in the frame on it, is assigned. Otherwise
`after_resume` (:56-87) calls `await_suspend` on the stack of the caller. -/
def resumeFrom (fin : Fin) (l : List Aw) : Pc × List Obs :=
  match h : fiber fin l with
  | (.returned, o) => (.gone, o ++ [.freed, .ub])
  | (.fin, o) =>
    match fin with
    | .destroy => (.gone, o ++ destroyFrom .final)
    -- `h.resume()`: the fiber goes on after the `do_await` and returns
    | .refuse => (.gone, o ++ [.freed, .ub])
    | _ => (.final, o)
  | (.await a r, o) =>
    match a with
    | .refuse => let x := resumeFrom fin r; (x.1, o ++ x.2)
    | .throws => (.at_ r, o ++ [.threw])
    | _ => (.at_ r, o)
termination_by l.length
decreasing_by exact fiber_rest h

/-- `make_context` (:285-362) -/
def make (p : Prog) : Pc × List Obs :=
  if p.lazy_ then (.start, []) else resumeFrom p.fin p.awaits

/-- A call through the handle. `resume_` is never set to null, which is what `done()` looks at
(frame.hpp:20-21). -/
def step (p : Prog) (pc : Pc) : Ev → Pc × List Obs
  | .resume =>
    match pc with
    | .start => resumeFrom p.fin p.awaits
    | .at_ r => resumeFrom p.fin r
    | _ => (pc, [])
  | .destroy => (.gone, destroyFrom pc)
  | .done =>
    match pc with
    | .gone => (pc, [])
    | _ => (pc, [.done false])

def runFrom (p : Prog) (pc : Pc) : List Ev → List (List Obs)
  | [] => []
  | e :: es => (step p pc e).2 :: runFrom p (step p pc e).1 es

/-- A history: what is observed of the making and of every call. -/
def run (p : Prog) (es : List Ev) : List (List Obs) :=
  (make p).2 :: runFrom p (make p).1 es

end Cobalt.Ctx
