import Verif.Chan.Spec
/-! Specification vocabulary for channels: taking turns. -/
namespace Cobalt.Chan

/-- The operation was cancelled or interrupted. -/
def St.stopped (s : St) : Tok → Bool
  | .r i => (s.R i).cancelled
  | .w i => (s.W i).cancelled

/-- An operation was woken and has not been resumed yet (one that was stopped does not count). -/
def St.woken (s : St) : Prop := ∃ t ∈ s.posted, s.stopped t = false

instance (s : St) : Decidable s.woken := by unfold St.woken; infer_instance

/-- Programs in which nobody begins an operation while another was woken and has not been resumed yet. -/
def Turns (s : St) : List Ev → Prop
  | [] => True
  | e :: es =>
    (match e with
      | .awaitR .. => ¬ s.woken
      | .awaitW .. => ¬ s.woken
      | _ => True) ∧ Turns (s.step e) es

instance decTurns : (s : St) → (es : List Ev) → Decidable (Turns s es)
  | _, [] => isTrue trivial
  | s, e :: es =>
    have := decTurns (s.step e) es
    match e, this with
    | .awaitR .., _ => inferInstanceAs (Decidable (_ ∧ _))
    | .awaitW .., _ => inferInstanceAs (Decidable (_ ∧ _))
    | .mkR, _ | .mkW, _ | .run _, _ | .cancelR _, _ | .cancelW _, _ | .intR _, _ | .intW _, _
    | .dropR _, _ | .dropW _, _ | .close, _ => inferInstanceAs (Decidable (True ∧ _))

end Cobalt.Chan
