import Verif.Lock.Late
/-!
# Specification of C128: nobody starves at a semaphore

A coroutine that waits to come in is woken after the others have given back a number of places that is known when it
begins to wait, whatever they do.
-/
namespace Cobalt.Lock

open Chan (Tok)

/-- Coroutine `u` waits on write `i` and nothing has been scheduled for it. -/
def Waits (s : St) (u i : Nat) : Prop := s.ph u = .wait i ∧ Tok.w i ∉ s.ch.posted

/-- … at every moment of the events `es`. -/
def WaitsAll (s : St) (u i : Nat) : List Ev → Prop
  | [] => Waits s u i
  | e :: es => Waits s u i ∧ WaitsAll (s.step e) u i es

/-- A place is given back. -/
def Gives (s : St) : Ev → Bool
  | .release v _ => decide (v < s.users ∧ s.ph v = .inside)
  | _ => false

/-- How many places are given back. -/
def gives (s : St) : List Ev → Nat
  | [] => 0
  | e :: es => (if Gives s e then 1 else 0) + gives (s.step e) es

/-- How many writes are in line before write `i`. -/
def ahead (s : St) (i : Nat) : Nat := s.ch.wq.idxOf i

instance (s : St) (u i : Nat) : Decidable (Waits s u i) := by unfold Waits; infer_instance

instance decWaitsAll (u i : Nat) : (es : List Ev) → (s : St) → Decidable (WaitsAll s u i es)
  | [], _ => by unfold WaitsAll; infer_instance
  | e :: es, s => by
    have := decWaitsAll u i es (s.step e)
    unfold WaitsAll
    infer_instance

/-- C128: while somebody waits that has `p` before it, with `w` others woken but not yet inside and `us` inside, no more
than `2 p + w` places are given back, and one more for each of `us` that is too many. -/
def C128 : Prop := ∀ (k : BitVec 64) (users : Nat) (es es' : List Ev) (u i : Nat) (us : List Nat), users < 2 ^ 64 →
  us.Nodup → (∀ v, v ∈ us ↔ (exec k users es).ph v = .inside) → WaitsAll (exec k users es) u i es' →
  gives (exec k users es) es' ≤ 2 * ahead (exec k users es) i + woken (exec k users es) + (us.length - k.toNat)

end Cobalt.Lock
