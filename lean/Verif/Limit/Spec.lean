import Verif.Limit.Model
/-!
# What is asked of a server that limits its sessions (C106)
-/
namespace Cobalt.Limit

/-- Every event is possible when it happens. -/
def Legal (s : St) : List Ev → Prop
  | [] => True
  | e :: es => s.ok e = true ∧ Legal (s.step e) es

instance (s : St) : (es : List Ev) → Decidable (Legal s es)
  | [] => inferInstanceAs (Decidable True)
  | e :: es =>
    have := instDecidableLegal (s.step e) es
    inferInstanceAs (Decidable (_ ∧ _))

/-- How the session for connection `c` has ended so far. -/
def outcome (c : Nat) : List Ev → Option Group.Out
  | [] => none
  | .finish d o :: es => if d = c then some o else outcome c es
  | _ :: es => outcome c es

/-- The connections whose sessions run: started and not ended. -/
def running (kind : Kind) (lim : Nat) (es : List Ev) : List Nat :=
  (run kind lim es).started.filter fun c => (outcome c es).isNone

/-- The server can go on. -/
def St.goesOn (s : St) : Prop := ∃ order, s.ok (.turn order) = true

/-- The server has not ended. -/
def St.alive (s : St) : Prop := ∀ x, s.ph ≠ .failed x

end Cobalt.Limit
