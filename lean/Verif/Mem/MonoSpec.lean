import Verif.Mem.MonoModel
import Verif.Mem.SboSpec
/-! A program that allocates frames from the arena. -/
namespace Cobalt.Mem

structure MBlk where
  addr : Nat
  size : Nat
  align : Nat
deriving DecidableEq, Repr

/-- The arena, the blocks handed out, and the memory it got from `operator new`
(pointer, size, alignment). -/
structure Arena where
  m : Mono
  live : List MBlk := []
  got : List (Nat × Nat × Nat) := []

/-- A request and what `operator new` would return. -/
structure Req where
  size : Nat
  align : Nat
  mem : Nat
deriving DecidableEq, Repr

def Arena.step (a : Arena) (r : Req) : Arena :=
  let res := a.m.allocate r.size r.align r.mem
  { m := res.2
    live := ⟨res.1, r.size, r.align⟩ :: a.live
    got := if res.2.older.length = a.m.older.length then a.got
      else (res.2.head.p, res.2.head.owned, res.2.head.aligned) :: a.got }

def Arena.steps (a : Arena) (rs : List Req) : Arena := rs.foldl Arena.step a

/-- The memory the arena owns: its buffer and what it got. -/
def Arena.regions (a : Arena) (base len : Nat) : List (Nat × Nat) :=
  (a.got.map fun g => (g.1, g.2.1)) ++ [(base, len)]

/-- Where the bookkeeping blocks are. -/
def Arena.headers (a : Arena) : List Nat := (a.m.head :: a.m.older).filterMap Chunk.header

/-- The contract of `operator new` and of the caller: the memory returned is aligned
and disjoint from all memory the arena owns; sizes are small enough not to
wrap around; alignments are powers of two. -/
def NewOk (base len : Nat) (a : Arena) : List Req → Prop
  | [] => True
  | r :: rs =>
    ((∃ k, r.align = 2 ^ k) ∧ r.size + Mono.realAlign r.align < 2 ^ 64 ∧
     Mono.realAlign r.align ∣ r.mem ∧
     ∀ g ∈ a.regions base len, Disjoint r.mem (a.m.memSize r.size + 7 + blockSize) g.1 g.2) ∧
    NewOk base len (a.step r) rs

end Cobalt.Mem
