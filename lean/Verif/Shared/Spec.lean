import Verif.Shared.Model

/-!
# What C131 says
-/
namespace Cobalt.Shared
open Group (Res)

/-- A possible history. -/
def Legal : St → List Ev → Prop
  | _, [] => True
  | s, e :: es => s.can e = true ∧ Legal (s.step e) es

instance Legal.dec : ∀ (s : St) (es : List Ev), Decidable (Legal s es)
  | _, [] => isTrue trivial
  | s, e :: es =>
    haveI := Legal.dec (s.step e) es
    inferInstanceAs (Decidable (s.can e = true ∧ Legal (s.step e) es))

/-- The coroutine with this promise has ended. -/
def Ended (es : List Ev) (id : Nat) : Prop := ∃ o, Ev.complete id o ∈ es

/-- It has been added to the group. -/
def Added (es : List Ev) (id : Nat) : Prop := Ev.push id ∈ es

/-- All is well: nothing undefined, no waiting coroutine destroyed, no promise destroyed before its coroutine has
ended, nobody told that another one waits. -/
structure Fine (es : List Ev) (s : St) : Prop where
  ub : s.ub = false
  killed : s.killed = []
  gone : ∀ m ∈ s.gone, Ended es m.id
  log : ∀ w, (w, Res.alreadyAwaited) ∉ s.log

/-- Any number of coroutines can wait for a group. -/
def C131Holds : Prop := ∀ es, Legal {} es → Fine es (St.run es)

/-- The wait has ended. -/
def St.over (s : St) (w : Nat) : Prop := ∃ r, (w, r) ∈ s.log

/-- It is a `wait`, and pending. -/
def St.waiting (s : St) (w : Nat) : Prop := s.busy w = true ∧ ∀ x ∈ s.one, x.1 ≠ w

/-- The coroutine of the member has not ended. -/
def Mem.alive (m : Mem) : Prop := m.out = none

/-- The events that go wrong:
* the first member that `wait_one` comes to and that has ended or is waited for is one that is waited for, and has not ended;
* when `wait` begins, somebody else waits for each of the members that have not ended, and there is one;
* the last member that a `wait` waits for ends, but another one, which it does not wait for, has not. -/
def Trouble (s : St) : Ev → Prop
  | .waitOne order => ∃ i m, order.find? (fun i => s.members[i]?.any Mem.hit) = some i ∧ s.members[i]? = some m ∧
      m.alive ∧ m.aw ≠ none
  | .waitAll => (∃ m ∈ s.members, m.alive) ∧ ∀ m ∈ s.members, m.alive → m.aw ≠ none
  | .complete id _ => ∃ w m, m ∈ s.members ∧ m.id = id ∧ m.aw = some w ∧ s.waiting w ∧
      (∀ x ∈ s.members, x.aw = some w → x.id = id) ∧ ∃ x ∈ s.members, x.id ≠ id ∧ x.alive
  | _ => False

/-- `wait_one` has begun to wait for a member when it comes to another one, that wait `w` waits for and that has not ended; and
`w`, resumed by that, ends: it is a `wait_one`, or waits for nothing else. -/
def Reused (s : St) : Ev → Prop
  | .waitOne order => ∃ i m w, order.find? (fun i => s.members[i]?.any Mem.hit) = some i ∧ order.head? ≠ some i ∧
      s.members[i]? = some m ∧ m.alive ∧ m.aw = some w ∧
      (s.waiting w → ∀ x ∈ s.members, x.aw = some w → x.id = m.id)
  | _ => False

/-- No wait begins before the others have ended, and nothing is added while a `wait` is pending. -/
def Apart (es : List Ev) : Prop :=
  ∀ p e q, es = p ++ e :: q →
    ((e = .waitAll ∨ ∃ order, e = .waitOne order) → ∀ w < (St.run p).next, (St.run p).over w) ∧
    ∀ id, e = .push id → ∀ w, ¬ (St.run p).waiting w

end Cobalt.Shared
