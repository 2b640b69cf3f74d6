import Verif.VNet.Model
/-! What a network of `channel<void>` should do. -/
namespace Cobalt.VNet

/-- Every channel has one reader and one writer. -/
structure Prog.proper (N : Prog) : Prop where
  read : ∀ p h c, N.act p h = .read c → N.rd c = p
  write : ∀ p h c, N.act p h = .write c → N.wr c = p

/-- What a coroutine does as its `n`-th operation if all before have succeeded. -/
def Prog.nth (N : Prog) (p n : Nat) : Act := N.act p (List.replicate n .ok)

/-- How often the action `a` is among the first `n` operations of coroutine `p`. -/
def Prog.times (N : Prog) (p : Nat) (a : Act) (n : Nat) : Nat := ((List.range n).filter fun i => N.nth p i = a).length

/-- Nothing more happens: no resumption is posted, and a coroutine that could go on has nothing more to do. -/
def St.rest (N : Prog) (s : St) : Prop :=
  (∀ c, (s.ch c).posted = []) ∧ ∀ p, s.pos p = .idle → N.act p (s.hist p) = .stop

/-- How many operations the coroutines can have done if there were no channels: a reader and a writer meet, and each
goes on. No queues, no counters, no executor. -/
inductive Meets (N : Prog) : (Nat → Nat) → Prop where
  | start : Meets N fun _ => 0
  | meet {k : Nat → Nat} {p q c : Nat} (h : Meets N k) (hr : N.nth p (k p) = .read c) (hw : N.nth q (k q) = .write c) :
      Meets N (Chan.upd (Chan.upd k p (k p + 1)) q (k q + 1))

end Cobalt.VNet
