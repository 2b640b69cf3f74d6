/-!
# Model of which uses of `with` are accepted by the compiler

Source: `include/boost/cobalt/with.hpp:24-208`, `include/boost/cobalt/detail/with.hpp:33-55`.

The requirements of an overload choose it; its body is only checked when it was chosen. A function
called with `std::move(arg)` or with `arg` can have parameters of different kinds; only some of them
bind.

Simplifications: `Arg` is a class; the teardown returns an awaitable and takes the exception by value or
by a reference an lvalue binds to; exceptions are enabled; `await_exit` has no qualifiers.
-/
namespace Cobalt.With.Forms

/-- The parameter for the argument: `T`, `T &`, `T &&`, `const T &`, or a template that takes all. -/
inductive Par where
  | value
  | lref
  | rref
  | cref
  | any
deriving DecidableEq, Repr

/-- The class of the argument; whether there are constructors for copying and moving. -/
structure Arg where
  copyable : Bool
  movable : Bool
deriving DecidableEq, Repr

/-- An lvalue, or else an rvalue, is given to a parameter. -/
def binds (a : Arg) (lvalue : Bool) : Par → Bool
  | .value => if lvalue then a.copyable else a.movable
  | .lref => lvalue
  | .rref => !lvalue
  | .cref => true
  | .any => true

/-- The result of `func`, or of awaiting it. -/
inductive Result where
  | void
  /-- an object; whether it can be assigned -/
  | value (assignable : Bool)
  | reference
deriving DecidableEq, Repr

/-- The teardown: a third argument, or the function `await_exit` of the argument. -/
inductive Teardown where
  | third (p : Par)
  | member
deriving DecidableEq, Repr

structure Use where
  arg : Arg
  /-- the argument is given as an lvalue -/
  lvalue : Bool
  func : Par
  /-- what `func` returns is awaitable -/
  awaitable : Bool
  result : Result
  teardown : Teardown
deriving DecidableEq, Repr

inductive Overload where
  /-- with.hpp:33-69 -/
  | asyncVoid
  /-- with.hpp:72-110 -/
  | syncVoid
  /-- with.hpp:113-152 -/
  | asyncValue
  /-- with.hpp:155-196 -/
  | syncValue
deriving DecidableEq, Repr

/-- The kind of parameter the teardown has: `&invoke_await_exit<Arg>` (with.hpp:24-28, 207) takes
`X &` if the argument is an lvalue and `X &&` if not. -/
def Use.tear (u : Use) : Par :=
  match u.teardown with
  | .third p => p
  | .member => if u.lvalue then .lref else .rref

/-- The overload that is chosen: all require that `func` can be called with `arg` and the teardown
with `std::move(arg)`. -/
def Use.select (u : Use) : Option Overload :=
  if binds u.arg true u.func && binds u.arg false u.tear then
    match u.awaitable, u.result with
    | true, .void => some .asyncVoid
    | false, .void => some .syncVoid
    | true, _ => some .asyncValue
    | false, _ => some .syncValue
  else none

/-- `std::optional` of the result, which is assigned (with.hpp:124, 132, 168, 176). -/
def resultOk : Result → Bool
  | .void => true
  | .value assignable => assignable
  | .reference => false

/-- The body of the overload: the teardown is given `std::move(arg)` if `func` is awaited
(with.hpp:59, 141), and `arg` if not (with.hpp:100, 185). -/
def Use.bodyOk (u : Use) : Overload → Bool
  | .asyncVoid | .asyncValue => binds u.arg false u.tear && resultOk u.result
  | .syncVoid | .syncValue => binds u.arg true u.tear && resultOk u.result

/-- The call of `with` compiles. `with` takes the argument by value. -/
def Use.compiles (u : Use) : Bool :=
  (if u.lvalue then u.arg.copyable else u.arg.movable) &&
  match u.select with
  | some o => u.bodyOk o
  | none => false

end Cobalt.With.Forms
