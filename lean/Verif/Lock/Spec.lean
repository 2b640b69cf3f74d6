import Verif.Lock.Model
/-!
# What C99 says
-/
namespace Cobalt.Lock

open Chan (Status Tok)

/-- At most `k` coroutines are inside. -/
def Excl (k : BitVec 64) (s : St) : Prop :=
  ∀ us : List Nat, us.Nodup → (∀ u ∈ us, s.ph u = .inside) → us.length ≤ k.toNat

/-- With nothing scheduled, a coroutine that waits to come in means that at least `k` coroutines are inside. -/
def Served (k : BitVec 64) (s : St) : Prop := s.ch.posted = [] → ∀ u i, s.ph u = .wait i →
  ∃ us : List Nat, us.Nodup ∧ (∀ u ∈ us, s.ph u = .inside) ∧ k.toNat ≤ us.length

/-- **C99**, in full: mutual exclusion, for any number of coroutines that fits into a `std::size_t`, and nobody waits
for nothing. -/
def C99 : Prop := ∀ (k : BitVec 64) (users : Nat) (es : List Ev), users < 2 ^ 64 →
  Excl k (exec k users es) ∧ Served k (exec k users es)

/-- A coroutine that comes in without waiting leaves room for those that have been woken and are scheduled. -/
def Polite (s : St) : Ev → Prop
  | .acquire _ _ => s.ch.limit.toNat ≤ s.ch.n.toNat ∨ s.ch.n.toNat + s.ch.posted.length < s.ch.limit.toNat
  | _ => True

def PoliteAll (s : St) : List Ev → Prop
  | [] => True
  | e :: es => Polite s e ∧ PoliteAll (s.step e) es

/-- A coroutine that has been woken is not cancelled any more and does not give up. -/
def Spares (s : St) : Ev → Prop
  | .cancel u => match s.ph u with
    | .wait i => Tok.w i ∉ s.ch.posted
    | _ => True
  | .timeout u => match s.ph u with
    | .wait i => Tok.w i ∉ s.ch.posted
    | _ => True
  | _ => True

def SparesAll (s : St) : List Ev → Prop
  | [] => True
  | e :: es => Spares s e ∧ SparesAll (s.step e) es

instance (s : St) (e : Ev) : Decidable (Polite s e) := by unfold Polite; split <;> infer_instance

instance (s : St) (e : Ev) : Decidable (Spares s e) := by
  unfold Spares; split
  · split <;> infer_instance
  · split <;> infer_instance
  · infer_instance

instance decPoliteAll (s : St) : (es : List Ev) → Decidable (PoliteAll s es)
  | [] => .isTrue trivial
  | e :: es =>
    have := decPoliteAll (s.step e) es
    inferInstanceAs (Decidable (_ ∧ _))

instance decSparesAll (s : St) : (es : List Ev) → Decidable (SparesAll s es)
  | [] => .isTrue trivial
  | e :: es =>
    have := decSparesAll (s.step e) es
    inferInstanceAs (Decidable (_ ∧ _))

end Cobalt.Lock
