import Verif.Own.Model
/-! What should hold of variables that are written to channels. -/
namespace Cobalt.Own
open Chan (Obs)

/-- A coroutine waits in a write of variable `x`. -/
def St.pending (s : St) (x : Nat) : Prop :=
  ∃ c i, s.src c i = x ∧ Obs.startW i ∈ (s.ch c).log ∧ i ∉ Chan.endedW (s.ch c).log

/-- The event writes or assigns variable `x`. -/
def Ev.touches (x : Nat) : Ev → Prop
  | .write _ y _ _ _ _ | .set y _ => y = x
  | _ => False

/-- Nobody touches a variable while a coroutine waits in a write of it: as for a local variable of this coroutine. -/
def Proper (cap m : Nat → Nat) (es : List Ev) : Prop :=
  ∀ es₁ e es₂ x, es = es₁ ++ e :: es₂ → e.touches x → ¬ (run cap m es₁).pending x

/-- Nothing undefined has happened. -/
def St.fine (s : St) : Prop := ∀ c, (s.ch c).ub = false

/-- What was assigned last to variable `x`, which was `v` at first. -/
def last (x v : Nat) : List Ev → Nat
  | [] => v
  | .set y w :: es => if y = x then last x w es else last x v es
  | _ :: es => last x v es

/-- All writes of variable `x` copy. -/
def copies (x : Nat) (es : List Ev) : Prop := ∀ c k conn txn hits, .write c x k conn txn hits ∈ es → k = .const ∨ k = .constRvalue

end Cobalt.Own
