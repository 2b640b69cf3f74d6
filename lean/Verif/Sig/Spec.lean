import Verif.Sig.Model
/-!
# What is asked of awaiting a signal (C104)
-/
namespace Cobalt.Sig

/-- No object is touched that is gone, and no coroutine that waits is destroyed by an emission. -/
def Safe (es : List Ev) : Prop := (exec es).ub = false ∧ ∀ w, Obs.gone w ∉ (exec es).log

/-- `a` comes before `b`. -/
def Before (l : List Obs) (a b : Obs) : Prop := [a, b].Sublist l

instance (l : List Obs) (a b : Obs) : Decidable (Before l a b) := by unfold Before; infer_instance

/-- An await returns at most once, and only the value of an emission that began after it did. -/
def Honest (l : List Obs) : Prop :=
  ∀ w n, Obs.got w n ∈ l → Before l (.wait w) (.emit n) ∧ ∀ n', Obs.got w n' ∈ l → n' = n

/-- Who waited when an emission began has been resumed (or the signal was destroyed first). -/
def Served (l : List Obs) : Prop :=
  ∀ w n, Before l (.wait w) (.emit n) → (∃ n', Obs.got w n' ∈ l) ∨ Obs.dropped w ∈ l

/-- The value returned by the await `w`, if it has returned one, is the one of the first emission after it began. -/
def First (l : List Obs) (w : Nat) : Prop :=
  ∀ n m, Obs.got w n ∈ l → Before l (.wait w) (.emit m) → n ≤ m

/-- In `es`, a coroutine resumed by the signal goes on beyond the expression of the `co_await` before it is suspended. -/
def Beyond (es : List Ev) : Prop :=
  ∃ p a r, es = p ++ .act a :: r ∧ (exec p).ok (.act a) = true ∧ a ≠ .hold

/-- In `es`, an emission begins while an earlier one has still to reach the await `w`. -/
def Overtaken (es : List Ev) (w : Nat) : Prop :=
  ∃ p r, es = p ++ .emit :: r ∧ (exec p).ok .emit = true ∧ w ∈ (exec p).conn ∧ ∃ f ∈ (exec p).stack, w ∈ f.todo

end Cobalt.Sig
