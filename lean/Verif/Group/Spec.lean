import Verif.Group.Model

/-!
# What `wait_group` is expected to do

Stated from the events alone: which promises were added, how they ended, which events are
possible.
-/
namespace Cobalt.Group

/-- The promises added so far. -/
def pushes : List Ev → List Nat
  | [] => []
  | .push id :: es => id :: pushes es
  | _ :: es => pushes es

/-- How a promise has ended so far. -/
def outcome (id : Nat) : List Ev → Option Out
  | [] => none
  | .complete i o :: es => if i = id then some o else outcome id es
  | _ :: es => outcome id es

/-- Every event is possible when it happens. -/
def Legal (s : St) : List Ev → Prop
  | [] => True
  | e :: es => s.can e = true ∧ Legal (s.step e) es

instance (s : St) : (es : List Ev) → Decidable (Legal s es)
  | [] => inferInstanceAs (Decidable True)
  | e :: es =>
    have := instDecidableLegal (s.step e) es
    inferInstanceAs (Decidable (_ ∧ _))

/-- The group as its user sees it. -/
def St.ids (s : St) : List Nat := s.members.map Mem.id

/-- `wait_one` number `w` ends between `s` and `t`: it was pending or is started, and the
outcome `r` is new. -/
def OneEnds (s : St) (e : Ev) (t : St) (w : Nat) (r : Res) : Prop :=
  ((∃ n, s.wait = some (.one w n)) ∨ ∃ order, e = .waitOne w order) ∧
  (w, r) ∈ t.log.take (t.log.length - s.log.length)

/-- What the end of `wait_one` is to be like: the group was empty and is unchanged, or a
member that has ended was removed and no other, and its outcome is reported. -/
def OneOk (h : List Ev) (s t : St) (r : Res) : Prop :=
  (s.ids = [] ∧ t.ids = [] ∧ r = .ok) ∨
  ∃ id ∈ s.ids, t.ids = s.ids.erase id ∧
    ((outcome id h = some .ok ∧ r = .ok) ∨ ∃ x, outcome id h = some (.err x) ∧ r = .err x)

/-- C22 as a statement about all histories. -/
def C22Holds : Prop :=
  ∀ (cn ce : Nat) (es : List Ev) (e : Ev) (w : Nat) (r : Res),
    Legal { normal := cn, except := ce } (es ++ [e]) →
    OneEnds (St.run cn ce es) e (St.run cn ce (es ++ [e])) w r →
    OneOk (es ++ [e]) (St.run cn ce es)
      (St.run cn ce (es ++ [e])) r

/-- What `reap` is to do: the members that have ended are removed, the others stay, and
the number is reported. -/
def ReapOk (h : List Ev) (s t : St) : Prop :=
  t.ids = s.ids.filter (fun id => (outcome id h).isNone) ∧
  t.reaps = (s.ids.filter fun id => (outcome id h).isSome).length :: s.reaps

/-- `wait` number `w` ends between `s` and `t`. -/
def AllEnds (s : St) (e : Ev) (t : St) (w : Nat) : Prop :=
  ((∃ ids, s.wait = some (.all w ids)) ∨ e = .waitAll w ∨ ∃ x, e = .exit w x) ∧
  ∃ r, t.log = (w, r) :: s.log

/-- What the end of `wait` is to be like: every member has ended and the group is empty. -/
def AllOk (h : List Ev) (s t : St) : Prop :=
  t.ids = [] ∧ ∀ id ∈ s.ids, (outcome id h).isSome

/-- The part of C23 about `reap`. -/
def C23Reap : Prop :=
  ∀ (cn ce : Nat) (es : List Ev), Legal { normal := cn, except := ce } es →
    ReapOk es (St.run cn ce es) (St.run cn ce (es ++ [.reap]))

/-- The part of C23 about `wait` and `await_exit`. -/
def C23Wait : Prop :=
  ∀ (cn ce : Nat) (es : List Ev) (e : Ev) (w : Nat),
    Legal { normal := cn, except := ce } (es ++ [e]) →
    AllEnds (St.run cn ce es) e (St.run cn ce (es ++ [e])) w →
    AllOk (es ++ [e]) (St.run cn ce es) (St.run cn ce (es ++ [e]))

end Cobalt.Group
