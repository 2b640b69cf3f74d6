import Verif.Pipe.Model
/-! Specification vocabulary for C95. -/
namespace Cobalt.Pipe

/-- The first `m` values. -/
def firstValues : Nat → List Nat
  | 0 => []
  | m + 1 => firstValues m ++ [m]

/-- Somebody has something to do: the executor of a channel has a resumption, or a coroutine is not suspended. -/
def St.busy (n : Nat) (s : St) : Prop :=
  (∃ k, k < n ∧ (s.ch k).posted ≠ []) ∨ ∃ k, k ≤ n ∧ (s.pos k = .between ∨ ∃ v, s.pos k = .has v)

/-- Nothing is left to do but to make more values: everybody but the producer waits for a value. -/
def St.drained (n : Nat) (s : St) : Prop :=
  (∀ k, k < n → (s.ch k).posted = []) ∧ s.pos 0 = .between ∧ ∀ k, k < n → ∃ i, s.pos (k + 1) = .reading i

end Cobalt.Pipe
