import Verif.Io.BufferModel
/-!
Specification vocabulary for buffer sequences: the bytes a sequence covers, as
a plain list of addresses, and the iterator reached by `k` increments.
-/
namespace Cobalt.Io

/-- The addresses a buffer covers, in order. -/
def Buf.cells (b : Buf) : List Nat := (List.range b.size).map (b.data + ·)

/-- The addresses a sequence covers, in order (concatenation of its buffers). -/
def Seq.cells (s : Seq) : List Nat := s.head.cells ++ (s.tail.map Buf.cells).flatten

/-- Iterator at position `k`: `begin()` advanced `k` times. -/
def Seq.at (s : Seq) : Nat → Iter
  | 0 => s.begin
  | k + 1 => (s.at k).inc

end Cobalt.Io
