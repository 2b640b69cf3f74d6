import Verif.Hnd.Model
/-! # Ownership -/
namespace Cobalt.Hnd

/-- In how many places a coroutine is held. -/
def St.held (s : St) (t : Nat) : Nat := s.hs.count (some t) + s.queue.count t

/-- All handles end and the executor drops its queue. -/
def cleanup : Nat → List Op
  | 0 => [.shutdown]
  | n + 1 => .reset n :: cleanup n

/-- No handle is resumed as an lvalue. -/
def NoConst (ops : List Op) : Prop := ∀ op ∈ ops, ∀ h, op ≠ .resumeConst h

/-- How often coroutine `t` is resumed through an lvalue by the operations, from state `s` on. -/
def lvalues (t : Nat) : St → List Op → Nat
  | _, [] => 0
  | s, op :: ops => (match op with
      | .resumeConst h => if s.ub = false ∧ s.get h = some t then 1 else 0
      | _ => 0) + lvalues t (s.step op) ops

end Cobalt.Hnd
