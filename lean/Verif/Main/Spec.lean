import Verif.Main.Model
/-! # What `co_main` should do -/
namespace Cobalt.Main

/-- Signals that were raised, in order. -/
def raised : List Ev → List Sig
  | [] => []
  | .raise x :: es => x :: raised es
  | _ :: es => raised es

/-- What a signal means. -/
def meaning : Sig → Cancel
  | .int => .total
  | .term => .terminal

/-- Nothing makes `co_main` return from within the emission of a cancellation. -/
def Posted (es : List Ev) : Prop := ∀ e ∈ es, ∀ v, e ≠ .pump (some v)

/-- The event loop goes on for `n` handlers. -/
def goOn : Nat → List Ev
  | 0 => []
  | n + 1 => .pump none :: goOn n

end Cobalt.Main
