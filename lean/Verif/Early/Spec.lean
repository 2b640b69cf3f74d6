import Verif.Early.Model
/-!
# What is asked of early completions (C105)
-/
namespace Cobalt.Early

/-- What can still be had from source `k`: what the operations `l` on it have returned, in their order, and what is left. -/
def St.have (s : St) (l : List Nat) (k : Nat) : List Nat := (l.filter fun i => s.of i == k).filterMap s.out ++ s.src k

/-- What was put into source `k`. -/
def put (src : Nat → List Nat) (vs : List (Nat × Nat)) (k : Nat) : List Nat :=
  src k ++ (vs.filter fun p => p.1 == k).map (·.2)

/-- Nothing is lost and nothing comes twice. -/
def Kept (fm : Form) (src : Nat → List Nat) (of : Nat → Nat) (l : List Nat) (vs : List (Nat × Nat)) : Prop :=
  ∀ k, ((run fm src of l vs).have l k).Perm (put src vs k)

/-- How many of the operations read from source `k`. -/
def readers (of : Nat → Nat) (l : List Nat) (k : Nat) : Nat := (l.filter fun i => of i == k).length

end Cobalt.Early
