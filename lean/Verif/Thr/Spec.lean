import Verif.Thr.Model
/-! # What awaiting a thread should do -/
namespace Cobalt.Thr

/-- The outcome of the thread as the awaiter should see it. -/
def expect : Option Nat → Got
  | none => .ok
  | some x => .exn x

/-- Both threads get `n` turns each. -/
def rounds : Nat → List Who
  | 0 => []
  | n + 1 => .A :: .F :: rounds n

end Cobalt.Thr
