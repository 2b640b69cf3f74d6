import Verif.Loop.Model
/-! Specification vocabulary for C119. -/
namespace Cobalt.Loop

/-- The program comes to its end, and stays there: `t` is how the loop of the consumer was left, `vs` what it has printed;
nothing undefined has happened, no assertion has failed, and the producer has written everything. -/
def Ends (cap n : Nat) (drain : Bool) (t : Turn) (vs : List Nat) : Prop :=
  ∃ j, ∀ i, j ≤ i →
    (run cap n drain i).turn = t ∧ (run cap n drain i).seen = vs ∧ (run cap n drain i).k = n ∧
    (run cap n drain i).s.ub = false ∧ (run cap n drain i).s.asserted = false

/-- How many of `n` values the consumer gets if the limit of the channel is `cap`. -/
def gets (cap n : Nat) : Nat :=
  if cap = 0 then n else if n ≤ cap then 0 else cap * ((n - 1) / cap) + 1

end Cobalt.Loop
