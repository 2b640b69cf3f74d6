import Verif.Lock.TurnSpec
/-!
# Specification of C130: coming in with a timeout

`co_await cobalt::race(sem.write(), timer.wait())`
-/
namespace Cobalt.Lock

open Chan (Tok)

/-- Coroutine `u` gives up and tries again. -/
def retry (u : Nat) : List Ev := [.timeout u, .acquire u true]

/-- Everything that is scheduled runs. -/
def drain (s : St) : St := s.steps ((List.replicate s.ch.posted.length 0).map .run)

/-- Nobody waits with nothing scheduled while a place is free. `us`: those inside. -/
def Awake (k : BitVec 64) (s : St) : Prop := ∀ us : List Nat, us.Nodup → (∀ u, u ∈ us ↔ s.ph u = .inside) →
  s.ch.posted = [] → ∀ u i, s.ph u = .wait i → k.toNat ≤ us.length

/-- C130: whoever gives up is not in the way of those who wait. Nobody is cancelled. -/
def C130 : Prop := ∀ (k : BitVec 64) (users : Nat) (es : List Ev), users < 2 ^ 64 → (∀ u, Ev.cancel u ∉ es) →
  Awake k (exec k users es)

end Cobalt.Lock
