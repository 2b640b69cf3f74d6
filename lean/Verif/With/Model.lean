/-!
# Model of `with`

Sources: `include/boost/cobalt/with.hpp` (the four overloads with a teardown; the one
without passes `invoke_await_exit`, with.hpp:200-208), `include/boost/cobalt/detail/with.hpp`.

The overloads differ in whether `func` is awaited and whether it has a result. Here `func`
and the teardown end at once (not awaitable, ready, or thrown before there is an
awaitable) or later.

`teardown` is given a reference to the exception (with.hpp:59: `e` is an lvalue; cf.
`invoke_await_exit`, with.hpp:25), so it can change it.

Simplifications: values and exceptions are numbers; the argument, executors and
cancellation slots are left out; the awaiting coroutine is not destroyed meanwhile.
-/
namespace Cobalt.With

/-- How `func` or the teardown ends. -/
inductive Out where
  | ret (v : Nat)
  | throw (x : Nat)
deriving DecidableEq, Repr

/-- How the teardown ends, and what it makes of the exception it was given. -/
structure Tear where
  out : Out
  change : Option Nat → Option Nat

/-- What `co_await with(...)` gives. -/
inductive Ret where
  | value (v : Nat)
  | void
  | throw (x : Nat)
deriving DecidableEq, Repr

/-- What is done, in order. -/
inductive Call where
  | func
  | teardown (e : Option Nat)
  | resume (r : Ret)
deriving DecidableEq, Repr

inductive Phase where
  | created
  | inFunc
  | inTear
  | done
deriving DecidableEq, Repr

structure Cfg where
  /-- the result of `func` is not void -/
  valued : Bool
  /-- `func` ends at once -/
  func : Option Out
  /-- the teardown ends at once -/
  tear : Option Tear

structure St where
  phase : Phase := .created
  e : Option Nat := none
  /-- `res`, and `with_promise_value::result` at the end -/
  res : Option Nat := none
  calls : List Call := []
  /-- the coroutine frame -/
  frame : Bool := true
  ub : Bool := false
deriving DecidableEq, Repr

namespace St

/-- `with_impl::await_resume` (detail/with.hpp:116-135), after the frame was destroyed:
`*std::move(res)` for an empty optional is undefined behaviour. -/
def resume (c : Cfg) (s : St) : St :=
  let s := { s with phase := .done, frame := false }
  match s.e with
  | some x => { s with calls := s.calls ++ [.resume (.throw x)] }
  | none =>
    if c.valued then
      match s.res with
      | some v => { s with calls := s.calls ++ [.resume (.value v)] }
      | none => { s with ub := true }
    else { s with calls := s.calls ++ [.resume .void] }

/-- The end of the teardown (with.hpp:61-67). -/
def tearEnds (c : Cfg) (s : St) (t : Tear) : St :=
  match t.out with
  | .ret _ => resume c { s with e := t.change s.e }
  | .throw x => resume c { s with e := match t.change s.e with
      | some y => some y
      | none => some x }

/-- The end of `func` (with.hpp:48-59): the teardown is called. -/
def funcEnds (c : Cfg) (s : St) (o : Out) : St :=
  let s := match o with
    | .ret v => { s with res := if c.valued then some v else none }
    | .throw x => { s with e := some x }
  let s := { s with calls := s.calls ++ [.teardown s.e], phase := .inTear }
  match c.tear with
  | some t => tearEnds c s t
  | none => s

/-- `with_impl::await_suspend` (detail/with.hpp:137-151) starts the coroutine. -/
def start (c : Cfg) (s : St) : St :=
  let s := { s with phase := .inFunc, calls := s.calls ++ [.func] }
  match c.func with
  | some o => funcEnds c s o
  | none => s

end St

inductive Ev where
  | start
  | funcEnds (o : Out)
  | tearEnds (t : Tear)

def St.step (c : Cfg) (s : St) : Ev → St
  | .start => if s.phase = .created then s.start c else s
  | .funcEnds o => if s.phase = .inFunc then s.funcEnds c o else s
  | .tearEnds t => if s.phase = .inTear then s.tearEnds c t else s

def St.run (c : Cfg) (es : List Ev) : St := es.foldl (St.step c) {}

end Cobalt.With
