import Verif.Net.Spec
/-! Networks in which values are passed on through buffers of limited size. -/
namespace Cobalt.Net

/-- What can have come of the operations of the coroutines if a channel were a buffer for `cap c` values: a write puts a
value into it if there is room, a read takes the oldest value; if there is none, a reader and a writer can meet. No
queues of waiting operations, no resumptions, no executor. -/
inductive Passes (N : Prog) (cap : Nat → Nat) : (Nat → List Res) → Prop where
  | start : Passes N cap fun _ => []
  | put {H : Nat → List Res} {q c v : Nat} (h : Passes N cap H) (hw : N.act q (H q) = .write c v)
      (ho : Act.close c ∉ done (N.act q) (H q))
      (hr : (sent c (done (N.act q) (H q))).length < (received (N.act (N.rd c)) c (H (N.rd c))).length + cap c) :
      Passes N cap (Chan.upd H q (H q ++ [.ok]))
  | get {H : Nat → List Res} {p c v : Nat} (h : Passes N cap H) (hr : N.act p (H p) = .read c)
      (hv : (sent c (done (N.act (N.wr c)) (H (N.wr c))))[(received (N.act p) c (H p)).length]? = some v) :
      Passes N cap (Chan.upd H p (H p ++ [.val v]))
  | meet {H : Nat → List Res} {p q c v : Nat} (h : Passes N cap H) (hr : N.act p (H p) = .read c)
      (hw : N.act q (H q) = .write c v) (ho : Act.close c ∉ done (N.act q) (H q))
      (he : (sent c (done (N.act q) (H q))).length = (received (N.act p) c (H p)).length) :
      Passes N cap (Chan.upd (Chan.upd H p (H p ++ [.val v])) q (H q ++ [.ok]))
  | close {H : Nat → List Res} {p c : Nat} (h : Passes N cap H) (hc : N.act p (H p) = .close c) :
      Passes N cap (Chan.upd H p (H p ++ [.ok]))
  | ended {H : Nat → List Res} {p c : Nat} (h : Passes N cap H) (hr : N.act p (H p) = .read c)
      (hs : Act.close c ∈ done (N.act (N.wr c)) (H (N.wr c)))
      (he : (sent c (done (N.act (N.wr c)) (H (N.wr c)))).length ≤ (received (N.act p) c (H p)).length) :
      Passes N cap (Chan.upd H p (H p ++ [.broken]))
  | shut {H : Nat → List Res} {p c v : Nat} (h : Passes N cap H) (hw : N.act p (H p) = .write c v)
      (hs : Act.close c ∈ done (N.act p) (H p)) : Passes N cap (Chan.upd H p (H p ++ [.broken]))

/-- The same coroutines, but coroutine `p` stops after `L p` operations. -/
def Prog.trunc (N : Prog) (L : Nat → Nat) : Prog where
  act := fun p h => if h.length < L p then N.act p h else .stop
  rd := N.rd
  wr := N.wr

end Cobalt.Net
