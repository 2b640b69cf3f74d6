import Verif.Nest.Model
/-! # What one expects of nested `with`s -/
namespace Cobalt.Nest

/-- Every argument is torn down once, after everything opened later has been, and nothing else
happens to it. -/
inductive Bal : List Act → Prop
  | nil : Bal []
  | raise (x : Nat) {w : List Act} : Bal w → Bal (.raise x :: w)
  | block (i : Nat) (e : Option Nat) {b t w : List Act} : Bal b → (∀ a ∈ t, ∃ x, a = .raise x) →
      Bal w → Bal (.opened i :: (b ++ .tear i e :: (t ++ .torn i :: w)))

def Act.raised : Act → Option Nat
  | .raise x => some x
  | _ => none

/-- The exceptions, in order. -/
def raises (tr : List Act) : List Nat := tr.filterMap Act.raised

def Leaks (tr : List Act) : Prop := ∃ i, .leak i ∈ tr

/-- An operation that is pending when the whole is cancelled ends with an error. -/
def Honest (ins : List In) : Prop := ∀ i ∈ ins, i.cancel = true → i.res ≠ none

/-- Even if nothing goes wrong, the coroutine ends with an exception. -/
def Prog.fails : Prog → Bool
  | .done => false
  | .fail _ => true
  | .op k => k.fails
  | .with_ _ b _ k => b.fails || k.fails

/-- It awaits an operation, if nothing goes wrong before. -/
def Prog.waits : Prog → Bool
  | .done => false
  | .fail _ => false
  | .op _ => true
  | .with_ _ b t k => b.waits || decide (0 < t) || (!b.fails && k.waits)

/-- A `with` comes after an operation in the same coroutine, or after a `with` with an operation in
it; `seen`: there has been one. -/
def Prog.late : Prog → Bool → Bool
  | .done, _ => false
  | .fail _, _ => false
  | .op k, _ => k.late true
  | .with_ _ b t k, seen =>
    seen || b.late false || (!b.fails && k.late (b.waits || decide (0 < t)))

/-- The operations in it. -/
def Prog.ops : Prog → Nat
  | .done => 0
  | .fail _ => 0
  | .op k => k.ops + 1
  | .with_ _ b t k => b.ops + t + k.ops

end Cobalt.Nest
