import Verif.Nurse.Model

/-!
# What is expected of `with` applied to a `wait_group`

Stated from the events: who was added, who has ended, whether `func` has ended.
-/
namespace Cobalt.Nurse

/-- Every event is possible when it happens. -/
def Legal (s : St) : List Ev → Prop
  | [] => True
  | e :: es => s.can e = true ∧ Legal (s.step e) es

instance (s : St) : (es : List Ev) → Decidable (Legal s es)
  | [] => inferInstanceAs (Decidable True)
  | e :: es =>
    have := instDecidableLegal (s.step e) es
    inferInstanceAs (Decidable (_ ∧ _))

/-- The coroutines added to the group. -/
def pushes : List Ev → List Nat
  | [] => []
  | .push _ id :: es => id :: pushes es
  | _ :: es => pushes es

/-- The coroutine has ended. -/
def ended (id : Nat) : List Ev → Bool
  | [] => false
  | .complete i _ :: es => i == id || ended id es
  | _ :: es => ended id es

/-- All of the group is being awaited, by `wait` in `func` or at the exit. -/
def St.awaited (s : St) : Bool :=
  match s.g.wait with
  | some (.all _ _) => true
  | _ => false

/-- The coroutines added while all of the group is being awaited. -/
def late (s : St) : List Ev → List Nat
  | [] => []
  | .push a id :: es => if s.awaited then id :: late (s.step (.push a id)) es else late (s.step (.push a id)) es
  | e :: es => late (s.step e) es

/-- How `func` has ended. -/
def funcEnd : List Ev → Option (Option Nat)
  | [] => none
  | .funcEnds x :: _ => some x
  | _ :: es => funcEnd es

/-- No `wait_one` is begun while another one is pending. -/
def NoOverlap (s : St) : List Ev → Prop
  | [] => True
  | e :: es => ((∃ w order, e = .waitOne w order) → s.g.wait = none) ∧ NoOverlap (s.step e) es

/-- C94: when `with` ends, every coroutine that was ever added to its group has ended. What
is done with the group is done while it exists. -/
def C94 : Prop :=
  ∀ (cn ce : Nat) (es : List Ev), Legal { g := { normal := cn, except := ce } } es →
    (St.run cn ce es).ub = false ∧
    ((St.run cn ce es).phase = .over → ∀ id ∈ pushes es, ended id es = true)

end Cobalt.Nurse
