import Verif.Chan.Model
/-!
Specification vocabulary for the channel properties: everything is read off the
history of observations `St.log`, or off which operations are still suspended.
-/
namespace Cobalt.Chan

/-- The values successful reads returned, oldest first. -/
def delivered (log : List Obs) : List Nat :=
  log.filterMap fun | .doneR _ (.value w) => some w | _ => none

/-- The writes that succeeded, oldest first. -/
def accepted (log : List Obs) : List Nat :=
  log.filterMap fun | .doneW w .ok => some w | _ => none

/-- The read operations whose await has ended, oldest first. -/
def endedR (log : List Obs) : List Nat :=
  log.filterMap fun | .doneR i _ => some i | _ => none

/-- The write operations whose await has ended, oldest first. -/
def endedW (log : List Obs) : List Nat :=
  log.filterMap fun | .doneW i _ => some i | _ => none

/-- The write operations awaited, in the order their awaits began. -/
def startsW (log : List Obs) : List Nat :=
  log.filterMap fun | .startW i => some i | _ => none

/-- `a` was observed, and for the first time before `b` was. -/
def Before (log : List Obs) (a b : Obs) : Prop := a ∈ log ∧ log.idxOf a < log.idxOf b

/-- Values on their way: a suspended reader has already been given `w`. -/
def St.inHand (s : St) (w : Nat) : Prop :=
  ∃ i, (s.R i).status = .susp ∧ (s.R i).direct = some w

/-- The values the channel has taken over, in the order they were written: those
whose write succeeded, and those handed to a reader whose writer has not been
resumed yet. -/
def St.taken (s : St) : List Nat :=
  (startsW s.log).filter fun w =>
    decide (Obs.doneW w .ok ∈ s.log) || (decide ((s.W w).status = .susp) && (s.W w).direct)

/-- No coroutine is suspended on the channel. -/
def St.idle (s : St) : Prop :=
  (∀ i, (s.R i).status ≠ .susp) ∧ (∀ i, (s.W i).status ≠ .susp)

/-- Every operation in a wait queue has a coroutine suspended on it. (An
interrupted operation stays queued until it is destroyed, see C09.) -/
def St.noStale (s : St) : Prop :=
  (∀ i ∈ s.rq, (s.R i).status = .susp) ∧ (∀ i ∈ s.wq, (s.W i).status = .susp)

/-- The event destroys an operation. -/
def Ev.isDrop : Ev → Bool
  | .dropR _ | .dropW _ => true
  | _ => false

/-- Programs that destroy an interrupted operation before doing anything else
with the channel. -/
def Tidy (s : St) : List Ev → Prop
  | [] => True
  | e :: es => (s.noStale ∨ e.isDrop = true) ∧ Tidy (s.step e) es

/-- Programs that do not await a write operation made before the channel was
closed once it is closed. (`co_await c.write(v)` makes and awaits the operation
in one go; `closedF` is whether the channel was closed when the operation was
made.) See C08 for what happens otherwise. -/
def Prompt (s : St) : List Ev → Prop
  | [] => True
  | e :: es =>
    (match e with
      | .awaitW i .. => s.closed = true → (s.W i).closedF = true
      | _ => True) ∧ Prompt (s.step e) es

/-- Programs with at most one suspended reader and one suspended writer: an
operation is awaited only when no other of its kind is suspended. -/
def Spsc (s : St) : List Ev → Prop
  | [] => True
  | e :: es =>
    (match e with
      | .awaitR .. => ∀ i, (s.R i).status ≠ .susp
      | .awaitW .. => ∀ i, (s.W i).status ≠ .susp
      | _ => True) ∧ Spsc (s.step e) es

instance (s : St) : Decidable (s.noStale) := by unfold St.noStale; infer_instance

instance decTidy : (s : St) → (es : List Ev) → Decidable (Tidy s es)
  | _, [] => isTrue trivial
  | s, e :: es =>
    have := decTidy (s.step e) es
    inferInstanceAs (Decidable (_ ∧ _))

instance decPrompt : (s : St) → (es : List Ev) → Decidable (Prompt s es)
  | _, [] => isTrue trivial
  | s, e :: es =>
    @instDecidableAnd _ _ (by cases e <;> (dsimp only; infer_instance)) (decPrompt (s.step e) es)

end Cobalt.Chan
