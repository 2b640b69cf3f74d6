import Verif.Result.Model
/-! # What awaiting an operation has to give -/
namespace Cobalt.Result

/-- The leading error of a completion, if there is one and it is set. -/
inductive LeadingError : List Arg → Nat → Prop where
  | intro (e : Nat) (rest : List Arg) : LeadingError (.err (some e) :: rest) e

/-- The arguments that are not the leading error. -/
inductive Payload : List Arg → List Arg → Prop where
  | noError (args : List Arg) (h : ∀ e rest, args ≠ .err e :: rest) : Payload args args
  | ok (rest : List Arg) : Payload (.err none :: rest) rest

/-- A list of arguments as a value: nothing, the one, or a tuple of all. -/
inductive Shows : Val → List Arg → Prop where
  | void : Shows .void []
  | one (a : Arg) : Shows (.one a) [a]
  | tuple (a b : Arg) (l : List Arg) : Shows (.tuple (a :: b :: l)) (a :: b :: l)

end Cobalt.Result
