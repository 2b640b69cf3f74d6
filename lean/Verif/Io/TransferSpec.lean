import Verif.Io.BufferSpec
import Verif.Io.TransferModel
/-!
Specification vocabulary for C41: what the partial transfers moved, as a list of
(position in the file, address in memory) pairs.
-/
namespace Cobalt.Io

/-- Byte `i` of a transfer issued at `offset` goes to position `offset + i`
(64 bit positions). -/
def placed (offset : Nat) (cells : List Nat) : List (Nat × Nat) :=
  (List.range cells.length).zip cells |>.map fun p => ((offset + p.1) % 2 ^ 64, p.2)

/-- The bytes one partial transfer moved: by the contract of
`read_some(_at)`/`write_some(_at)` the first `n` of the buffer it was given. -/
def Xfer.moved (x : Xfer) : List (Nat × Nat) := placed x.offset (x.buffer.cells.take x.n)

/-- All bytes moved, in order of time. -/
def movedAll (xs : List Xfer) : List (Nat × Nat) := (xs.map Xfer.moved).flatten

/-- The contract of a partial transfer: it reports at most the size of the buffer. -/
def Honest (xs : List Xfer) : Prop := ∀ x ∈ xs, x.n ≤ x.buffer.cells.length

instance (xs : List Xfer) : Decidable (Honest xs) := by unfold Honest; infer_instance

end Cobalt.Io
