import Verif.Err.Model
/-!
# Properties of the library's errors
-/
namespace Cobalt.Err

/-- The error an exception function is named after. -/
def Fn.meant : Fn → Error
  | .moved_from_exception => .movedFrom
  | .detached_exception => .detached
  | .completed_unexpected => .completedUnexpected
  | .wait_not_ready => .waitNotReady
  | .already_awaited => .alreadyAwaited
  | .allocation_failed => .allocationFailed

/-- **C70**, in full: the code of every error is a failure; different errors have different codes
and messages, which are not that of an unknown one; every exception carries the error it is
named after. -/
def C70 : Prop :=
  (∀ e, (makeErrorCode e).failed = true) ∧
  (∀ e e', (makeErrorCode e).value = (makeErrorCode e').value → e = e') ∧
  (∀ e e', message (makeErrorCode e).value = message (makeErrorCode e').value → e = e') ∧
  (∀ e n, 5 < n → message (makeErrorCode e).value ≠ message n) ∧
  (∀ f : Fn, f.code.value = (makeErrorCode f.meant).value)

/-- `error::moved_from` is zero: the code of the exception thrown by a promise that was moved
from is no failure. -/
theorem C70_violated : ¬ C70 := fun h => by
  have := h.1 .movedFrom
  simp [makeErrorCode, Error.toNat, Code.failed, cobaltCategory] at this

/-- The exception for a failed allocation says already awaited. -/
theorem C70_allocation_violated :
    message Fn.allocation_failed.code.value = "already awaited" ∧
    ¬ ∀ f : Fn, f.code.value = (makeErrorCode f.meant).value :=
  ⟨rfl, fun h => by
    have := h .allocation_failed
    simp [Fn.code, makeErrorCode, Error.toNat, Fn.meant] at this⟩

/-- What holds: all but `moved_from` are failures, errors are told apart by code and message, and
all exceptions but that for a failed allocation carry their own. -/
theorem C70_partial :
    (∀ e, (makeErrorCode e).failed = true ↔ e ≠ .movedFrom) ∧
    (∀ e e', (makeErrorCode e).value = (makeErrorCode e').value → e = e') ∧
    (∀ e e', message (makeErrorCode e).value = message (makeErrorCode e').value → e = e') ∧
    (∀ e n, 5 < n → message (makeErrorCode e).value ≠ message n) ∧
    (∀ f : Fn, f.code.value = (makeErrorCode f.meant).value ↔ f ≠ .allocation_failed) := by
  refine ⟨?_, ?_, ?_, ?_, ?_⟩
  · intro e; cases e <;> decide
  · intro e e'; cases e <;> cases e' <;> decide
  · intro e e'; cases e <;> cases e' <;> decide
  · intro e n hn
    have : message n = "unknown cobalt error" := by
      unfold message
      split <;> first | omega | rfl
    rw [this]
    cases e <;> decide
  · intro f; cases f <;> decide

example : message (makeErrorCode .waitNotReady).value = "wait not ready" ∧
    (makeErrorCode .waitNotReady).failed = true := by decide

end Cobalt.Err
