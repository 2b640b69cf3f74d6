import Verif.Xthr.Model
/-!
# What a data race is
-/
namespace Cobalt.Xthr

/-- Which of two programs. -/
def prog (pa pb : List Act) : Thread → List Act
  | .a => pa
  | .b => pb

/-- Happens before: `x` and `y` are a thread and the number of an action. -/
inductive HB (pa pb : List Act) : Thread × Nat → Thread × Nat → Prop where
  | po {t : Thread} {i j : Nat} (h : i < j) : HB pa pb (t, i) (t, j)
  | sync {t t' : Thread} {i j k : Nat} (hs : (prog pa pb t)[i]? = some (.send k))
    (hr : (prog pa pb t')[j]? = some (.recv k)) : HB pa pb (t, i) (t', j)
  | trans {x y z : Thread × Nat} (h : HB pa pb x y) (h' : HB pa pb y z) : HB pa pb x z

/-- Two threads use the pool, and neither use happens before the other. -/
def Race (pa pb : List Act) : Prop :=
  ∃ i j, pa[i]? = some (.use .pool) ∧ pb[j]? = some (.use .pool) ∧
    ¬ HB pa pb (.a, i) (.b, j) ∧ ¬ HB pa pb (.b, j) (.a, i)

end Cobalt.Xthr
