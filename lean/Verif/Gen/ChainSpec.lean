import Verif.Gen.ChainModel
/-! What a chain of generators should compute: streams and functions on them. -/
namespace Cobalt.Gen.Chain

/-- A stream: values, and if it has ended how: `some none` in order, `some (some x)` by the
exception `x`. -/
structure Str where
  vals : List Nat := []
  fin : Option (Option Nat) := none
deriving DecidableEq, Repr

/-- What the source gave. The value it returns is one of the stream. -/
def source : List Ev → Str
  | [] => {}
  | .src (.yield v) :: es => { source es with vals := v :: (source es).vals }
  | .src (.ret v) :: _ => { vals := [v], fin := some none }
  | .src (.throw x) :: _ => { fin := some (some x) }
  | _ :: es => source es

/-- `for v in s: for w in f v: yield w`, `return r`, where `f` and `r` know the values before. -/
def stage (f : List Nat → Nat → List Nat) (r : List Nat → Nat) (s : Str) : Str :=
  { vals := (s.vals.zipIdx.flatMap fun x => f (s.vals.take x.2) x.1) ++ (if s.fin = some none then [r s.vals] else [])
    fin := s.fin }

/-- The first `k` stages. -/
def through (c : Cfg) : Nat → Str → Str
  | 0, s => s
  | k + 1, s => stage (c.f k) (c.r k) (through c k s)

/-- `s` is what is known of `t` so far. -/
def Le (s t : Str) : Prop := s = t ∨ s.fin = none ∧ s.vals <+: t.vals

/-- How a loop has ended. -/
def ending : For.Phase → Option (Option Nat)
  | .finished => some none
  | .thrown (.user x) => some (some x)
  | _ => none

/-- What a loop has seen. -/
def sees (l : For.St) : Str := { vals := l.seen, fin := ending l.phase }

/-- A loop that goes on, or has ended with its generator. -/
def Proper : For.Phase → Prop
  | .head | .waiting _ | .finished | .thrown (.user _) => True
  | _ => False

end Cobalt.Gen.Chain
