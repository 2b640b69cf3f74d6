import Verif.Comb.Spec
/-! What the order of a race is about. -/
namespace Cobalt.Order
open Comb

/-- The awaitable that answers with this event whether it is ready, or throws
instead. -/
def answers : Ev → Option Nat
  | .ready i _ _ => some i
  | .notReady i => some i
  | .thrown i _ _ => some i
  | _ => none

/-- Awaitable `j` has been asked. -/
def Asked (es : List Ev) (j : Nat) : Prop := ∃ e ∈ es, answers e = some j

end Cobalt.Order
