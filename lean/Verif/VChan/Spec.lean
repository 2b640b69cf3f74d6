import Verif.VChan.Model
/-! Specification vocabulary for channel<void>: counting tokens. -/
namespace Cobalt.VChan

open Chan (Status Tok upd)

/-- How many reads have succeeded. -/
def reads (log : List Obs) : Nat := log.countP fun | .doneR _ .ok => true | _ => false

/-- How many writes have succeeded. -/
def writes (log : List Obs) : Nat := log.countP fun | .doneW _ .ok => true | _ => false

/-- A coroutine is suspended on the operation and its token has changed hands. -/
def Op.held (o : Op) : Bool := decide (o.status = .susp) && o.direct

/-- How many of the first `n` operations satisfy `held`. -/
def heldCount (f : Nat → Op) (n : Nat) : Nat := (List.range n).countP fun i => (f i).held

/-- Tokens handed to a read that has not resumed yet. -/
def St.handed (s : St) : Nat := heldCount s.R s.nextR

/-- Tokens taken from a write that has not resumed yet. -/
def St.given (s : St) : Nat := heldCount s.W s.nextW

/-- At most one suspended reader and one suspended writer. -/
def Spsc (s : St) : List Ev → Prop
  | [] => True
  | e :: es =>
    (match e with
      | .awaitR .. => ∀ i, (s.R i).status ≠ .susp
      | .awaitW .. => ∀ i, (s.W i).status ≠ .susp
      | _ => True) ∧ Spsc (s.step e) es

/-- Every queued operation has a coroutine suspended on it. -/
def St.noStale (s : St) : Prop :=
  (∀ i ∈ s.rq, (s.R i).status = .susp) ∧ (∀ i ∈ s.wq, (s.W i).status = .susp)

/-- The event destroys an operation. -/
def Ev.isDrop : Ev → Bool
  | .dropR _ | .dropW _ => true
  | _ => false

/-- Programs that destroy an interrupted operation before doing anything else
with the channel. -/
def Tidy (s : St) : List Ev → Prop
  | [] => True
  | e :: es => (s.noStale ∨ e.isDrop = true) ∧ Tidy (s.step e) es

instance (s : St) : Decidable (s.noStale) := by unfold St.noStale; infer_instance

instance decTidy : (s : St) → (es : List Ev) → Decidable (Tidy s es)
  | _, [] => isTrue trivial
  | s, e :: es =>
    have := decTidy (s.step e) es
    inferInstanceAs (Decidable (_ ∧ _))

end Cobalt.VChan
