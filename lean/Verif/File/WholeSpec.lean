import Verif.File.WholeModel
import Verif.File.Spec
/-! # What whole reads and writes have to do -/
namespace Cobalt.File

open Io (Seq Buf Result)

/-- A whole read at position `at_`: as many bytes as the buffers take and the file has get into the cells in order,
nothing else is changed, and the end of the file is reported exactly if it was met. -/
def Reads (data : List Nat) (at_ : Nat) (mem : Nat → Nat) (cells : List Nat) (mem' : Nat → Nat) (res : Result) :
    Prop :=
  res = .done (if at_ + cells.length ≤ data.length ∨ cells = [] then none else some eof)
    (min cells.length (data.length - at_)) ∧
  (∀ a, a ∉ cells.take (data.length - at_) → mem' a = mem a) ∧
  (cells.Nodup → ∀ i c, cells[i]? = some c → i < data.length - at_ → some (mem' c) = data[at_ + i]?)

/-- A whole write at position `at_`. -/
def Writes (data : List Nat) (at_ : Nat) (mem : Nat → Nat) (cells : List Nat) (data' : List Nat) (res : Result) :
    Prop :=
  res = .done none cells.length ∧
  WritesAt data at_ (cells.map mem) cells.length data' cells.length

end Cobalt.File
