import Verif.Io.ReuseModel
/-! Specification vocabulary for C118. -/
namespace Cobalt.Io

/-- The bytes moved, in order of time, without their positions. -/
def cellsAll (xs : List Xfer) : List Nat := (xs.map fun x => x.buffer.cells.take x.n).flatten

/-- A device that makes progress: a transfer that does not fail moves at least one byte if it is given any. -/
def Lively (xs : List Xfer) (outs : List (Option Nat × Nat)) : Prop :=
  ∀ p ∈ xs.zip outs, p.2.1 = none → p.1.buffer.cells ≠ [] → 0 < p.1.n

instance (xs : List Xfer) (outs : List (Option Nat × Nat)) : Decidable (Lively xs outs) := by
  unfold Lively; infer_instance

/-- The transfers moved an initial part of `cells`, each byte once and in order, starting at position `offset`. -/
def InOrder (offset : Nat) (cells : List Nat) (xs : List Xfer) : Prop :=
  ∃ k, k ≤ cells.length ∧ movedAll xs = placed offset (cells.take k)

end Cobalt.Io
