import Verif.Prom.Spec
/-!
# What makes a use of a promise undefined

Read off the history (`Sp`), with two things of the state: which frames are left, and what is in a promise that was
moved from after its coroutine had ended.
-/
namespace Cobalt.Prom

/-- The uses that are undefined at once, after a history of uses listed at `Tidy`:
* awaiting a promise that was moved from after its coroutine had ended without a value;
* `get` of a promise whose coroutine has not ended, that was moved from by assignment, or as above;
* interrupting an await while another one waits for the same promise;
* assigning to a promise whose coroutine, or that it was last used for, is gone;
* cancelling, leaving (if attached) or destroying a promise that was moved from by assignment, when the coroutine is
  gone. -/
def Undefined (p : Sp) (s : St) : Ev → Prop
  | .await _ r => p.holds r = .husk ∧ ∃ R, s.recv r = some R ∧ R.result = none
  | .get r => (∃ c, p.holds r = .coro c ∧ p.ended c = none) ∨ (∃ c, p.holds r = .zombie c) ∨
      (p.holds r = .husk ∧ ∃ R, s.recv r = some R ∧ R.result = none)
  | .interrupt a => ∃ w R b, s.aw a = some w ∧ s.recv w.self = some R ∧ R.awaited = some b ∧ b ≠ a
  | .moveA r _ => ∃ R c, s.recv r = some R ∧ R.ref = some c ∧ s.frame c = none
  | .drop r | .cancel r => ∃ c, p.holds r = .zombie c ∧ s.frame c = none
  | .leave r => (∃ R, s.recv r = some R ∧ R.attached = true) ∧ ∃ c, p.holds r = .zombie c ∧ s.frame c = none
  | _ => False

end Cobalt.Prom
