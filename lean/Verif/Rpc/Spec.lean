import Verif.Rpc.Model
/-! What the calls should return, and when everything is over. -/
namespace Cobalt.Rpc

/-- One of the calls throws. -/
def Prog.fails (P : Prog) (i : Nat) : Prop := ∃ e, Out.fail e ∈ P.calls i

/-- What a coroutine knows agrees with its calls: what it got so far are the results of its first calls, in order; when it is
done all have been made; an exception it ends with is that of its next call. -/
def St.right (P : Prog) (s : St) (i : Nat) : Prop :=
  (P.calls i).take (s.res i).length = (s.res i).map .ok ∧
    (s.w i = .done → P.calls i = (s.res i).map .ok) ∧
    ∀ e, s.w i = .failed e → (P.calls i)[(s.res i).length]? = some (.fail e)

/-- All coroutines and all workers have ended. -/
def St.over (P : Prog) (s : St) : Prop :=
  (∀ i, i < P.works → (s.w i).dead = true) ∧ ∀ x, x < P.workers → s.k x = .ended

/-- Nothing can happen any more. -/
def St.rest (P : Prog) (s : St) : Prop := ∀ e, s.can P e = false

/-- All events can happen when their turn comes. -/
def St.allCan (P : Prog) (s : St) : List Ev → Prop
  | [] => True
  | e :: es => s.ub = false ∧ s.can P e = true ∧ St.allCan P (s.step P e) es

end Cobalt.Rpc
