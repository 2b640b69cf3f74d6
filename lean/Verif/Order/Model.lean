import Verif.Comb.Model
/-!
# The order in which a race tries its awaitables

Sources: `include/boost/cobalt/detail/race.hpp:105-114` (the variadic form: the
table `impls` of the coroutines, line 287, is shuffled unless the generator is
`left_race_tag`), lines 458-470 (the ranged form: `reorder` is filled with 0, 1, ...
and shuffled, unless...), lines 296-323 and 607-632 (they are started in this
order), `include/boost/cobalt/race.hpp:21-26` (the generator used if none is
given).

Simplifications:
* `std::shuffle` is the loop that the standard library has: place 1, 2, ... is
  swapped with a place drawn at or before it. The draws are an argument. That the
  library may obtain two draws from one number is not modelled.
* The generator does not throw.
-/
namespace Cobalt.Order

/-- What `std::swap` of the places `i` and `r` makes of a table. -/
def swap (a : Nat → Nat) (i r : Nat) : Nat → Nat :=
  fun j => if j = i then a r else if j = r then a i else a j

/-- The table 0, 1, ... (race.hpp:463, 287-292) after the first `n` places were
handled; `d k` is what was drawn for place `k`. -/
def shuffled (d : Nat → Nat) : Nat → Nat → Nat
  | 0 => fun j => j
  | k + 1 => swap (shuffled d k) k (d k)

/-- The order in which `n` awaitables are tried. -/
def tries (left : Bool) (d : Nat → Nat) (n : Nat) : List Nat :=
  if left then List.range n else (List.range n).map (shuffled d n)

/-- A race of `n` awaitables. -/
def race (left : Bool) (d : Nat → Nat) (n : Nat) (intr void : Nat → Bool) (allVoid ranged : Bool) (ct : Nat) :
    Comb.Cfg :=
  { kind := .race, n := n, order := tries left d n, intr := intr, void := void, allVoid := allVoid, ranged := ranged,
    ct := ct }

end Cobalt.Order
