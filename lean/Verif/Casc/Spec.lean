import Verif.Casc.Model
/-!
# What a chain of awaits is
-/
namespace Cobalt.Casc
open Cobalt.Cst (CT Filter)

/-- The filters of a coroutine make `o` of `ct`, which is something. -/
def Passes (x : Coro) (ct o : CT) : Prop := o = x.outF (x.inF ct) ∧ o ≠ .none_

/-- By `n` coroutines, `r` waiting for the next and so on, the last of which waits for operation
`k`, a cancellation `ct` of `r` becomes one `o` of the operation. -/
inductive Reaches (s : St) : Nat → Nat → CT → Nat → CT → Prop where
  | op {r k : Nat} {ct o : CT} (h : (s.co r).waits = some (.op k)) (hp : Passes (s.co r) ct o) :
    Reaches s 1 r ct k o
  | coro {n r c k : Nat} {ct o o' : CT} (h : (s.co r).waits = some (.coro c))
    (hp : Passes (s.co r) ct o) (hr : Reaches s n c o k o') : Reaches s (n + 1) r ct k o'

/-- `r` waits for the next and so on, `n` coroutines, the last of which waits for `k`. -/
inductive Chain (s : St) : Nat → Nat → Nat → Prop where
  | op {r k : Nat} (h : (s.co r).waits = some (.op k)) : Chain s 1 r k
  | coro {n r c k : Nat} (h : (s.co r).waits = some (.coro c)) (hr : Chain s n c k) :
    Chain s (n + 1) r k

/-- A cancellation `ct` of `r` is one `ct'` when it arrives at `q`, after `n` others. -/
inductive Through (s : St) : Nat → Nat → CT → Nat → CT → Prop where
  | here {r : Nat} {ct : CT} : Through s 0 r ct r ct
  | next {n r c q : Nat} {ct o ct' : CT} (h : (s.co r).waits = some (.coro c))
    (hp : Passes (s.co r) ct o) (hr : Through s n c o q ct') : Through s (n + 1) r ct q ct'

/-- No coroutine that ends cancels by a destructor of a parameter one by which the cancellation
comes back to itself. -/
def Safe (es : List Ev) : Prop :=
  ∀ a b c r ct depth, es = a ++ .ret c (some (r, ct, depth)) :: b →
    ∀ n ct', n < depth → 0 < n → ¬ Through (({} : St).run a) n r ct c ct'

end Cobalt.Casc
