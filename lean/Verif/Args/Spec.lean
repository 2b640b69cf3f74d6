import Verif.Args.Model
/-! # Which argument has to be found -/
namespace Cobalt.Args

/-- `x` comes right after the first `tag`. -/
def AfterFirst (tag : Arg) (args : List Arg) (x : Arg) : Prop :=
  ∃ pre post, args = pre ++ tag :: x :: post ∧ tag ∉ pre

end Cobalt.Args
