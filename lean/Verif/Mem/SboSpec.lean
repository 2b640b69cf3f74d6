import Verif.Mem.SboModel
/-!
A program using the small-buffer resource: which blocks it holds, and what
reaches upstream.
-/
namespace Cobalt.Mem

/-- A block the program holds. `up` records who handed it out: what the program
cannot see, but the specification can. -/
structure Blk where
  addr : Nat
  size : Nat
  align : Nat
  up : Bool
deriving DecidableEq, Repr

/-- The bytes `[a, a+m)` and `[b, b+n)` have nothing in common. -/
def Disjoint (a m b n : Nat) : Prop := a + m ≤ b ∨ b + n ≤ a

/-- Everything: the buffer given to the constructor, the resource, the blocks held,
and whether some deallocation went to the wrong place. -/
structure World where
  base : Nat
  len : Nat
  sbo : Sbo
  live : List Blk := []
  misrouted : Bool := false

inductive MEv where
  /-- request; `answer` is what upstream returns if it is asked -/
  | alloc (size align answer : Nat)
  /-- give back the `k`-th block held, with the size it was requested with -/
  | free (k : Nat)
deriving DecidableEq, Repr

def World.init (base len : Nat) : World := { base, len, sbo := Sbo.make base len }

def World.step (w : World) : MEv → World
  | .alloc size align answer =>
    match w.sbo.allocate size with
    | (s, some a) => { w with sbo := s, live := { addr := a, size, align, up := false } :: w.live }
    | (s, none) => { w with sbo := s, live := { addr := answer, size, align, up := true } :: w.live }
  | .free k =>
    match w.live[k]? with
    | none => w
    | some b =>
      let r := w.sbo.deallocate b.addr b.size
      { w with sbo := r.1, live := w.live.eraseIdx k, misrouted := w.misrouted || (r.2 != b.up) }

def World.steps (w : World) (es : List MEv) : World := es.foldl World.step w

/-- The contract of the environment: sizes are not zero and can be rounded up
within `size_t`; what upstream returns is outside the buffer and disjoint from
every block upstream has lent out. -/
def Lawful (w : World) : List MEv → Prop
  | [] => True
  | e :: es =>
    (match e with
      | .alloc size _ answer => 0 < size ∧ size + maxAlign ≤ 2 ^ 64 ∧
          Disjoint answer size w.base w.len ∧
          ∀ b ∈ w.live, b.up = true → Disjoint answer size b.addr b.size
      | .free _ => True) ∧ Lawful (w.step e) es

end Cobalt.Mem
