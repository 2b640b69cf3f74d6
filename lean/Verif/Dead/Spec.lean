import Verif.Dead.Model
/-!
# What C127 says
-/
namespace Cobalt.Dead

/-- A program that holds the semaphores `h` and numbers below `n`: it takes one only if its number is greater than
those of all it holds, gives back what it holds, and holds nothing in the end. -/
def Ordered (n : Nat) (h : List Nat) : List Cmd → Prop
  | [] => h = []
  | .take j :: p => j < n ∧ (∀ i ∈ h, i < j) ∧ Ordered n (j :: h) p
  | .give j :: p => j ∈ h ∧ Ordered n (h.filter (· ≠ j)) p

instance decOrdered (n : Nat) : (h : List Nat) → (p : List Cmd) → Decidable (Ordered n h p)
  | h, [] => inferInstanceAs (Decidable (h = []))
  | h, .take j :: p =>
    have := decOrdered n (j :: h) p
    inferInstanceAs (Decidable (_ ∧ _ ∧ _))
  | h, .give j :: p =>
    have := decOrdered n (h.filter (· ≠ j)) p
    inferInstanceAs (Decidable (_ ∧ _))

/-- `users` coroutines, `n` semaphores, each for at least one, and ordered programs. -/
structure Setup (users n : Nat) (k : Nat → BitVec 64) (prog : Nat → List Cmd) : Prop where
  few : users < 2 ^ 64
  room : ∀ j, 0 < (k j).toNat
  ordered : ∀ u, Ordered n [] (prog u)
  others : ∀ u, users ≤ u → prog u = []

/-- An event that does something: a coroutine that is not suspended has a command, or something is posted. -/
def Acts (s : St) : Ev → Prop
  | .go u _ => s.blocked u = false ∧ s.prog u ≠ []
  | .run j m => m < (s.lk j).ch.posted.length

/-- Every event of `es` does something when it happens. -/
def ActsAll (s : St) : List Ev → Prop
  | [] => True
  | e :: es => Acts s e ∧ ActsAll (s.step e) es

/-- Everybody has finished, and holds nothing. -/
def Finished (s : St) : Prop := ∀ u, s.prog u = [] ∧ ∀ j, (s.lk j).ph u = .out

/-- How many commands there are. -/
def commands (users : Nat) (prog : Nat → List Cmd) : Nat := ((List.range users).map fun u => (prog u).length).sum

/-- **C127**: semaphores that are taken in order do not deadlock: a run cannot go on for ever, and when it cannot go on,
everybody has finished. -/
def C127 : Prop := ∀ (users n : Nat) (k : Nat → BitVec 64) (prog : Nat → List Cmd), Setup users n k prog →
  ∀ es, ActsAll (St.init users k prog) es → es.length ≤ 2 * commands users prog ∧
    ((∀ e, ¬ Acts (exec users k prog es) e) → Finished (exec users k prog es))

end Cobalt.Dead
