import Verif.Pool.Model
import Verif.Chan.LostLemmas
/-!
# What C102 says
-/
namespace Cobalt.Pool

/-- Whose operation it is. -/
def St.own (s : St) : Chan.Tok → Co
  | .r i => .w (s.ownR i)
  | .w i => .p (s.ownW i)

/-- Nothing undefined has happened, and no job is lost: one the channel has taken over was given to a worker, is on its
way to one, or is in the buffer. -/
def St.Sound (s : St) : Prop := s.ch.ub = false ∧ ∀ j, ¬ s.ch.Lost j

/-- Nobody runs, nobody is scheduled, and nobody waits for anything but the channel. -/
def St.rest (s : St) : Prop := s.cur = none ∧ s.away = [] ∧ s.ch.posted = []

/-- Coroutine `c` has been started. -/
def St.started (s : St) : Co → Prop
  | .w i => i < s.nw
  | .p i => i < s.np

/-- How many workers and producers a schedule starts. -/
def workers (es : List Ev) : Nat := es.countP fun | .worker => true | _ => false
def producers (es : List Ev) : Nat := es.countP fun | .producer _ => true | _ => false

/-- The simplest schedules: all coroutines are started first, nobody awaits anything but the channel, and the executor
runs what was posted in the order it was posted in. -/
def Simple (es : List Ev) : Prop := ∃ a b, es = a ++ b ∧
  (∀ e ∈ a, e = .worker ∨ (∃ n, e = .producer n) ∨ e = .go) ∧ ∀ e ∈ b, e = .run 0 ∨ e = .go

/-- **C102**, in full: whatever the limit, however many workers and producers. -/
def C102 : Prop := ∀ (cap : Nat) (es : List Ev), (exec cap es).Sound

end Cobalt.Pool
