/-!
# Model of results

Sources: `include/boost/cobalt/result.hpp`, `include/boost/cobalt/op.hpp`.

Which overload of `interpret_as_result` is taken depends on the types of the arguments. Here
an argument carries what matters of its type: it is of a type errors are thrown from
(`detail::result_error`: `error_code`, `exception_ptr`, …), or of another. Simplifications:
values are numbers; an error converts to `true` if there is one; `result::value` throws what
`throw_exception_from_error` makes of the error, which is identified with the error.
-/
namespace Cobalt.Result

/-- An argument of a completion. -/
inductive Arg where
  /-- of an error type; set or not -/
  | err (e : Option Nat)
  | val (v : Nat)
deriving DecidableEq, Repr

/-- What a `result` holds as value: `void`, one argument, or a tuple. -/
inductive Val where
  | void
  | one (a : Arg)
  | tuple (as : List Arg)
deriving DecidableEq, Repr

/-- `system::result` -/
inductive Res where
  | value (v : Val)
  | error (e : Nat)
deriving DecidableEq, Repr

/-- How an `await_resume` ends. -/
inductive Out (α : Type) where
  | ret (a : α)
  | throw (e : Nat)
deriving DecidableEq, Repr

/-- `interpret_as_result` (result.hpp:35-81). -/
def interpret : List Arg → Res
  | [] => .value .void
  | [.err (some e)] => .error e
  | [.err none] => .value .void
  | [.val v] => .value (.one (.val v))
  | .val v :: a :: as => .value (.tuple (.val v :: a :: as))
  | [.err (some e), _] => .error e
  | [.err none, a] => .value (.one a)
  | .err (some e) :: _ :: _ :: _ => .error e
  | .err none :: a :: b :: as => .value (.tuple (a :: b :: as))

/-- `result::value` -/
def Res.get : Res → Out Val
  | .value v => .ret v
  | .error e => .throw e

/-! ## Operations (op.hpp:86-112) -/

/-- What the awaitable of an operation has when it is resumed: the exception of the
initiation, or the arguments of the completion. -/
inductive Done where
  | initThrew (e : Nat)
  | completed (args : List Arg)
deriving DecidableEq, Repr

/-- `await_resume(as_result_tag)` -/
def Done.asResult : Done → Out Res
  | .initThrew e => .throw e
  | .completed args => .ret (interpret args)

/-- `await_resume(as_tuple_tag)` -/
def Done.asTuple : Done → Out (List Arg)
  | .initThrew e => .throw e
  | .completed args => .ret args

/-- `await_resume()` -/
def Done.resume : Done → Out Val
  | .initThrew e => .throw e
  | .completed args => (interpret args).get

/-! ## The adaptors for any awaitable -/

/-- Any awaitable: what its `await_resume` does, whether that is `noexcept`, and the overloads
for the tags if it has them. -/
structure Aw where
  resume : Out Val
  nothrow : Bool := false
  tagResult : Option (Out Res) := none
  tagTuple : Option (Out (List Arg)) := none
  /-- a value of the type it returns, value-initialized -/
  dflt : Val
deriving DecidableEq, Repr

/-- `as_result_t::await_resume` (result.hpp:103-138). -/
def Aw.asResult (aw : Aw) : Out Res :=
  match aw.tagResult with
  | some r => r
  | none =>
    match aw.resume with
    | .ret v => .ret (.value v)
    | .throw e => .ret (.error e)

/-- The elements of a value in `std::make_tuple` and `make_tuple_` (result.hpp:263-277): a
tuple is taken apart by the latter. -/
def Val.parts : Val → List Arg
  | .void => []
  | .one a => [a]
  | .tuple as => as

/-- `as_tuple_t::await_resume` (result.hpp:217-261). For a `noexcept` one a tuple is not
taken apart, `whole` is that tuple as one argument. -/
def Aw.asTuple (aw : Aw) (whole : List Arg → Arg) : Out (List Arg) :=
  match aw.tagTuple with
  | some r => r
  | none =>
    if aw.nothrow then
      match aw.resume with
      | .ret .void => .ret []
      | .ret (.one a) => .ret [a]
      | .ret (.tuple as) => .ret [whole as]
      | .throw e => .throw e
    else
      match aw.resume with
      | .ret v => .ret (.err none :: v.parts)
      | .throw e => .ret (.err (some e) :: aw.dflt.parts)

/-- The awaitable of an operation: it has both overloads, and may throw. -/
def Done.aw (d : Done) (dflt : Val) : Aw where
  resume := d.resume
  tagResult := some d.asResult
  tagTuple := some d.asTuple
  dflt := dflt

end Cobalt.Result
