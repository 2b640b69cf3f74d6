import Verif.VNet.Spec
/-! Networks of coroutines that synchronise with counters. -/
namespace Cobalt.VNet

/-- How many operations the coroutines can have done if a channel were a counter between 0 and `cap c`: a write adds one
if there is room, a read takes one away; at 0 a reader and a writer can meet. No queues of waiting operations, no
resumptions, no executor. -/
inductive Counts (N : Prog) (cap : Nat → Nat) : (Nat → Nat) → Prop where
  | start : Counts N cap fun _ => 0
  | put {k : Nat → Nat} {q c : Nat} (h : Counts N cap k) (hw : N.nth q (k q) = .write c)
      (hr : N.times q (.write c) (k q) < N.times (N.rd c) (.read c) (k (N.rd c)) + cap c) :
      Counts N cap (Chan.upd k q (k q + 1))
  | get {k : Nat → Nat} {p c : Nat} (h : Counts N cap k) (hr : N.nth p (k p) = .read c)
      (hv : N.times p (.read c) (k p) < N.times (N.wr c) (.write c) (k (N.wr c))) :
      Counts N cap (Chan.upd k p (k p + 1))
  | meet {k : Nat → Nat} {p q c : Nat} (h : Counts N cap k) (hr : N.nth p (k p) = .read c)
      (hw : N.nth q (k q) = .write c) (he : N.times q (.write c) (k q) = N.times p (.read c) (k p)) :
      Counts N cap (Chan.upd (Chan.upd k p (k p + 1)) q (k q + 1))

/-- How many operations the coroutines have done. -/
def St.ops (s : St) : Nat → Nat := fun p => (s.hist p).length

end Cobalt.VNet
