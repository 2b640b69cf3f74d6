import Verif.Task.Spec
/-!
# What makes a use of a task undefined
-/
namespace Cobalt.Task

/-- The uses that are undefined at once, after a history of uses listed at `Tidy`: awaiting a task whose body was
started and has not ended, and awaiting or spawning one that was moved from after it had ended without a value. -/
def Undefined (p : Sp) (s : St) : Ev → Prop
  | .await _ r => (∃ c, p.holds r = .coro c ∧ p.begun c = true ∧ p.ended c = none) ∨
      (p.holds r = .husk ∧ ∃ R, s.recv r = some R ∧ R.result = none)
  | .spawn _ r _ => p.holds r = .husk ∧ ∃ R, s.recv r = some R ∧ R.result = none
  | _ => False

end Cobalt.Task
