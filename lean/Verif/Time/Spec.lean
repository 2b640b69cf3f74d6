import Verif.Time.Model
/-!
# Specification of sleeping and timers
-/
namespace Cobalt.Time

/-- At `t` the duration has passed since `now`: `count · num / den` seconds, in exact
arithmetic. -/
def Passed (now : Int) (p : Period) (count t : Int) : Prop :=
  count * p.num * 10 ^ 9 ≤ (t - now) * p.den

/-- A 64 bit value. -/
def In64 (x : Int) : Prop := lo ≤ x ∧ x ≤ hi

instance (x : Int) : Decidable (In64 x) := inferInstanceAs (Decidable (_ ∧ _))

/-- The wait an observation is the end of. -/
def Obs.endOf : Obs → Option Nat
  | .ended id _ _ => some id
  | _ => none

/-- The wait an observation is the start of. -/
def Obs.startOf : Obs → Option Nat
  | .started id _ _ => some id
  | _ => none

/-- Every abort is preceded by the start of the wait and then by a call which aborts. -/
def AbortsWhy (log : List Obs) : Prop :=
  ∀ a b id t, log = a ++ Obs.ended id .aborted t :: b →
    ∃ a1 a2 e t0, a = a1 ++ Obs.started id e t0 :: a2 ∧ Obs.stopped ∈ a2

end Cobalt.Time
