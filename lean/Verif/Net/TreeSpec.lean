import Verif.Net.Spec
/-! Networks without cycles. -/
namespace Cobalt.Net

/-- Somebody may read from channel `c` or write to it. -/
def Prog.used (N : Prog) (c : Nat) : Prop := ∃ p h, N.act p h = .read c ∨ ∃ v, N.act p h = .write c v

/-- The coroutines and channels form a forest: channel `c` connects coroutine `kid c` with its parent, which has a
smaller number, in whichever direction, and it is the only one that does. -/
structure Prog.forest (N : Prog) (par kid : Nat → Nat) : Prop where
  ends : ∀ c, N.used c → N.rd c = kid c ∧ N.wr c = par (kid c) ∨ N.wr c = kid c ∧ N.rd c = par (kid c)
  less : ∀ c, N.used c → par (kid c) < kid c
  one : ∀ c c', N.used c → N.used c' → kid c = kid c' → c = c'

/-- A coroutine closes what it writes to before it stops, and reads what it reads from to the end; at least if
what comes of its operations is what can come of them. -/
def Prog.polite (N : Prog) : Prop :=
  ∀ p h, fits (N.act p) h → N.act p h = .stop → ∀ c, N.used c →
    (N.wr c = p → Act.close c ∈ done (N.act p) h) ∧ (N.rd c = p → Res.broken ∈ received (N.act p) c h)

end Cobalt.Net
