import Verif.File.Model
/-! # What positioned access has to do -/
namespace Cobalt.File

/-- `got` are bytes of `data` from `offset` on: up to `n` of them, and some if there are any
to be had and the device moves any (`k`). -/
def ReadsAt (data : List Nat) (offset n k : Nat) (got : List Nat) : Prop :=
  got.length = min (min n k) (data.length - offset) ∧
  ∀ i, i < got.length → got[i]? = data[offset + i]?

/-- After writing `m` of `bytes` at `offset` the file has these bytes there, zeros in a gap
before, and is otherwise as it was. -/
def WritesAt (data : List Nat) (offset : Nat) (bytes : List Nat) (k : Nat) (data' : List Nat) (m : Nat) :
    Prop :=
  m = min k bytes.length ∧
  (m = 0 → data' = data) ∧
  (0 < m → data'.length = max data.length (offset + m)) ∧
  ∀ i, i < data'.length → data'[i]? =
    if offset ≤ i ∧ i < offset + m then bytes[i - offset]?
    else if i < data.length then data[i]? else some 0

/-- Where a `seek` has to go. -/
def target (f : F) (offset : Int) : Whence → Int
  | .start => offset
  | .current => f.pos + offset
  | .end_ => f.data.length + offset

/-- A `seek` goes to its target and reports it, or reports an error and leaves the position. -/
def Seeks (f : F) (offset : Int) (w : Whence) (f' : F) (r : Sought) : Prop :=
  f'.data = f.data ∧
  if target f offset w < 0 then f'.pos = f.pos ∧ ∃ e, r = .error e
  else (f'.pos : Int) = target f offset w ∧ ∃ p, r = .at_ p ∧ (p : Int) = target f offset w

end Cobalt.File
