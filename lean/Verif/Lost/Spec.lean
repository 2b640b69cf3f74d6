import Verif.Lost.Model
/-!
# How children end, read off the history
-/
namespace Cobalt.Lost

/-- How child `i` ended first: with a result or an exception (`true`), or by being destroyed. -/
def firstEnd (i : Nat) : List Ev → Option Bool
  | [] => none
  | .fin j _ :: es => if j = i then some true else firstEnd i es
  | .lost j :: es => if j = i then some false else firstEnd i es
  | _ :: es => firstEnd i es

/-- Child `i` of `n` has neither completed nor been destroyed. -/
def Waits (n : Nat) (es : List Ev) (i : Nat) : Prop := i < n ∧ firstEnd i es = none

/-- Child `i` of `n` was destroyed. -/
def Destroyed (n : Nat) (es : List Ev) (i : Nat) : Prop := i < n ∧ firstEnd i es = some false

/-- The first exception of a child that had not ended before; `ended` are those that have. -/
def firstThrow (n : Nat) : List Nat → List Ev → Option Nat
  | _, [] => none
  | ended, .fin i o :: es =>
    if i < n ∧ i ∉ ended then
      match o with
      | some e => some e
      | none => firstThrow n (i :: ended) es
    else firstThrow n ended es
  | ended, .lost i :: es => firstThrow n (i :: ended) es
  | ended, _ :: es => firstThrow n ended es

/-- Once a child was destroyed nothing but the destruction of children happens. -/
inductive Quiet : List Ev → Prop where
  | losts (es : List Ev) : (∀ e, e ∈ es → ∃ i, e = .lost i) → Quiet es
  | cons (e : Ev) (es : List Ev) : (∀ i, e ≠ .lost i) → Quiet es → Quiet (e :: es)

end Cobalt.Lost
