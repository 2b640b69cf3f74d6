/-!
# Model of awaiting an asio operation

Sources: `include/boost/cobalt/op.hpp` (`op::awaitable_base`),
`include/boost/cobalt/detail/handler.hpp` (`completion_handler`,
`completion_handler_noop_executor`), `include/boost/cobalt/unique_handle.hpp`.

The awaitable lives in the frame of the awaiting coroutine. The completion handler owns
that coroutine and points into the awaitable (`result`, `completed_immediately`). Once the
coroutine is resumed or destroyed the awaitable is gone, and any access is undefined
behaviour (`ub`).

What the operation does while it is initiated is a script (`Act`), and so is what it does
later when the context runs one of its continuations.

Simplifications: the arguments of a completion are a number; memory resources,
cancellation slots and handler tracking are left out; the coroutine does not await the
same awaitable again. `uncaught_exceptions() > 0` is true just while an exception
of the operation is in flight.
-/
namespace Cobalt.Oper

/-- detail/handler.hpp:28-31 -/
inductive Flag where
  | no
  | maybe
  | yes
  | initiating
deriving DecidableEq, Repr

/-- Where the completion handler is: with the code that is running, kept by the operation
for later, or gone (moved from, invoked or destroyed). -/
inductive Holder where
  | held
  | stored
  | gone
deriving DecidableEq, Repr

/-- What an operation does. -/
inductive Act where
  | skip
  | seq (a b : Act)
  /-- run work through the immediate executor of the handler -/
  | exec (work : Act)
  /-- do something and swallow an exception -/
  | attempt (a : Act)
  /-- invoke the handler -/
  | complete (v : Nat)
  /-- keep the handler for later -/
  | store
  /-- destroy the handler -/
  | drop
  | throw
deriving DecidableEq, Repr

/-- What `co_await` gives. -/
inductive Ret where
  | value (v : Nat)
  | initFailed
deriving DecidableEq, Repr

structure S where
  flag : Flag := .no
  result : Option Nat := none
  holder : Holder := .gone
  /-- the awaitable exists -/
  alive : Bool := true
  /-- the coroutine was destroyed by its handler -/
  destroyed : Bool := false
  /-- inside `await_suspend` -/
  init : Bool := false
  /-- suspended, `await_suspend` having returned -/
  suspended : Bool := false
  /-- what `co_await` has given, newest first -/
  returned : List Ret := []
  /-- resumptions by the handler -/
  resumed : Nat := 0
  /-- a resumption while inside `await_suspend` -/
  early : Bool := false
  /-- work posted by the immediate executor -/
  posted : List Act := []
  /-- an exception is in flight -/
  exc : Bool := false
  ub : Bool := false
deriving DecidableEq, Repr

namespace S

/-- The coroutine goes on with `await_resume` (op.hpp:86-112) and leaves the awaitable. -/
def goOn (s : S) : S :=
  match s.result with
  | some v => { s with returned := .value v :: s.returned, alive := false, suspended := false }
  | none => { s with ub := true }

/-- `completion_handler::operator()` (detail/handler.hpp:252-268). -/
def complete (s : S) (v : Nat) : S :=
  if s.holder ≠ .held || !s.alive then { s with ub := true }
  else
    let s := { s with result := some v, holder := .gone }
    if s.flag = .maybe then { s with flag := .yes }
    else goOn { s with resumed := s.resumed + 1, early := s.early || s.init }

/-- `~completion_handler` (detail/handler.hpp:271-277) and of its member `self`, which
destroys the coroutine. -/
def drop (s : S) : S :=
  if s.holder ≠ .held then s
  else if !s.alive then { s with ub := true }
  else if s.flag = .initiating && s.exc then { s with holder := .gone }
  else { s with holder := .gone, alive := false, destroyed := true, suspended := false }

/-- `completion_handler_noop_executor::execute` before the work (detail/handler.hpp:42-49). -/
def inline (s : S) : Bool := s.flag = .initiating || s.flag = .maybe

/-- `execute` after the work (detail/handler.hpp:50-53). -/
def after (s : S) : S :=
  if s.exc || s.ub then s
  else if !s.alive then { s with ub := true }
  else if s.flag = .yes then s
  else { s with flag := .initiating }

end S

def eval : Act → S → S
  | .skip, s => s
  | .seq a b, s => if (eval a s).exc || (eval a s).ub then eval a s else eval b (eval a s)
  | .exec a, s =>
    if !s.alive then { s with ub := true }
    else if s.inline then (eval a { s with flag := .maybe }).after
    else { s with posted := s.posted ++ [a] }
  | .attempt a, s => { eval a s with exc := false }
  | .complete v, s => s.complete v
  | .store, s => if s.holder = .held then { s with holder := .stored } else { s with ub := true }
  | .drop, s => s.drop
  | .throw, s => { s with exc := true }

namespace S

/-- The end of `await_suspend` after an exception (op.hpp:79-83): the handler was destroyed
while unwinding; `await_suspend` returns false and `await_resume` rethrows. -/
def failed (s : S) : S :=
  if s.drop.ub || !s.drop.alive then { s.drop with ub := true }
  else { s.drop with exc := false, init := false, alive := false, returned := .initFailed :: s.returned }

/-- The end of `await_suspend` otherwise (op.hpp:75-77). -/
def initiated (s : S) : S :=
  if s.drop.ub || !s.drop.alive then { s.drop with ub := true }
  else if s.drop.flag = .yes then goOn { s.drop with init := false }
  else { s.drop with
    init := false, suspended := true, flag := if s.drop.flag = .initiating then .no else s.drop.flag }

/-- `await_suspend` (op.hpp:59-85). -/
def suspend (a : Act) : S :=
  let s := eval a { flag := .initiating, holder := .held, init := true }
  if s.ub then s else if s.exc then s.failed else s.initiated

/-- `await_ready` (op.hpp:48-52) with what `ready` stores in the result, and
`await_suspend`. -/
def await (ready : Option Nat) (a : Act) : S :=
  match ready with
  | some v => goOn { result := some v }
  | none => suspend a

/-- The context runs a continuation of the operation, which has the handler. If this does
nothing with it, it goes with the work that was posted, or is destroyed. -/
def later (a : Act) (s : S) : S :=
  if s.ub || s.holder ≠ .stored then s
  else
    let t := eval a { s with holder := .held }
    if t.ub then t
    else if t.holder = .held && t.posted ≠ [] then { t with holder := .stored, exc := false }
    else { t.drop with exc := false }

/-- The context runs posted work. -/
def run (s : S) : S :=
  match s.posted with
  | [] => s
  | a :: as => later a { s with posted := as }

end S

end Cobalt.Oper
