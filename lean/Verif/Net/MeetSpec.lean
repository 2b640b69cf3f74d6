import Verif.Net.Spec
/-! Networks in which a value is passed on when its reader and its writer meet. -/
namespace Cobalt.Net

/-- What can have come of the operations of the coroutines if there were no channels: a reader and a writer meet, and
each goes on; a channel is closed; a read or a write finds the channel closed. No queues, no buffers, no executor. -/
inductive Meets (N : Prog) : (Nat → List Res) → Prop where
  | start : Meets N fun _ => []
  | meet {H : Nat → List Res} {p q c v : Nat} (h : Meets N H) (hr : N.act p (H p) = .read c)
      (hw : N.act q (H q) = .write c v) (ho : Act.close c ∉ done (N.act q) (H q)) :
      Meets N (Chan.upd (Chan.upd H p (H p ++ [.val v])) q (H q ++ [.ok]))
  | close {H : Nat → List Res} {p c : Nat} (h : Meets N H) (hc : N.act p (H p) = .close c) :
      Meets N (Chan.upd H p (H p ++ [.ok]))
  | ended {H : Nat → List Res} {p c : Nat} (h : Meets N H) (hr : N.act p (H p) = .read c)
      (hs : Act.close c ∈ done (N.act (N.wr c)) (H (N.wr c))) : Meets N (Chan.upd H p (H p ++ [.broken]))
  | shut {H : Nat → List Res} {p c v : Nat} (h : Meets N H) (hw : N.act p (H p) = .write c v)
      (hs : Act.close c ∈ done (N.act p) (H p)) : Meets N (Chan.upd H p (H p ++ [.broken]))

/-- Nobody can meet anybody, and nobody can go on alone. -/
structure Stuck (N : Prog) (H : Nat → List Res) : Prop where
  meet : ∀ p q c v, N.act p (H p) = .read c → N.act q (H q) = .write c v → Act.close c ∈ done (N.act q) (H q)
  close : ∀ p c, N.act p (H p) ≠ .close c
  ended : ∀ p c, N.act p (H p) = .read c → Act.close c ∉ done (N.act (N.wr c)) (H (N.wr c))
  shut : ∀ p c v, N.act p (H p) = .write c v → Act.close c ∉ done (N.act p) (H p)

end Cobalt.Net
