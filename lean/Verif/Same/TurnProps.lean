import Verif.Same.Props
import Verif.Chan.TurnProps
/-!
# C135 for any number of users that take turns
-/
namespace Cobalt.Same

/-- **C135** with any limit and any number of producers and consumers: as long as the channel is open, nobody begins an
operation while another was woken and has not been resumed yet, and interrupted operations are destroyed at once,
`channel<void>` is `channel<T>` without the values. That `channel<T>` fails no assertion and does nothing undefined is
not assumed. -/
theorem C135_turns_partial {cap : Nat} (h : cap < 2 ^ 64) (es : List Chan.Ev) (hs : Chan.Turns (Chan.St.init cap) es)
    (ht : Chan.Tidy (Chan.St.init cap) es) (ho : (Chan.exec cap es).closed = false) :
    VChan.exec (BitVec.ofNat 64 cap) (es.map ev) = empty (Chan.exec cap es) := by
  have hu := Chan.C05_turns_defined_partial cap es hs ht ho
  have k : Chan.T (Chan.exec cap es) := Chan.turns_steps (Chan.WF.init cap) (Chan.T.init cap) es hs ho hu
  exact C135_lockstep_partial h es ⟨hu, k.fine, ho⟩

example : Chan.Turns (Chan.St.init 1) Chan.turns3 ∧ Chan.Tidy (Chan.St.init 1) Chan.turns3 ∧
    (Chan.exec 1 Chan.turns3).closed = false ∧
    (VChan.exec 1 (Chan.turns3.map ev)).log = [.doneW 0 .ok, .doneR 0 .ok, .doneW 1 .ok, .doneR 1 .ok] := by decide

end Cobalt.Same
