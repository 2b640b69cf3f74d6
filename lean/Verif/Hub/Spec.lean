import Verif.Hub.Model
/-! What the hub and its sessions should do. -/
namespace Cobalt.Hub
open Net (Res)

/-- What came of the reads of session `i`. -/
def St.got (s : St) (i : Nat) : List Res := s.net.hist (i + 1)

/-- The updates since session `i` subscribed. -/
def St.due (s : St) (i : Nat) : List Nat := s.log.drop (s.since i)

/-- Every session that is still there has all of them, and the hub is in its loop. -/
def St.served (s : St) : Prop := s.free ∧ ∀ i, i < s.n → s.left i = false → s.got i = (s.due i).map .val

/-- Nothing is posted, the hub cannot go on and every session that is still there reads. -/
def St.rest (s : St) : Prop :=
  (∀ c, (s.net.ch c).posted = []) ∧ (s.net.pos 0 = .idle → s.todo = []) ∧
    ∀ i, i < s.n → s.left i = false → s.net.pos (i + 1) ≠ .idle

/-- The hub, the sessions and the executor go on, but nothing comes from outside. -/
def Ev.calm : Ev → Prop
  | .hub _ | .read _ _ | .run _ _ => True
  | _ => False

/-- The hub waits in a write to channel `i`, whose session is gone, and nothing is posted that would end this. -/
def St.stuck (s : St) (i : Nat) : Prop := (∃ j, s.net.pos 0 = .writing i j) ∧ s.left i = true ∧ (s.net.ch i).posted = []

/-- No session leaves while the hub waits for it. -/
def polite (s : St) : List Ev → Prop
  | [] => True
  | e :: es => (∀ i, e = .leave i → ∀ j, s.net.pos 0 ≠ .writing i j) ∧ polite (s.step e) es

/-- The event does something: the hub goes on, a session reads, or a resumption is run. -/
def St.useful (s : St) : Ev → Prop
  | .hub _ => s.net.pos 0 = .idle ∧ s.todo ≠ []
  | .read i _ => i < s.n ∧ s.left i = false ∧ s.net.pos (i + 1) = .idle
  | .run c k => k < (s.net.ch c).posted.length
  | _ => False

/-- All events do something. -/
def St.usefuls (s : St) : List Ev → Prop
  | [] => True
  | e :: es => s.useful e ∧ St.usefuls (s.step e) es

end Cobalt.Hub
