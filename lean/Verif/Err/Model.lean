/-!
# Model of the library's errors

Sources: `include/boost/cobalt/error.hpp`, `src/error.cpp`, `src/detail/exception.cpp`.

`system::error_code` is modelled after Boost.System: a code is a failure if its category says so
of the number, and `error_category::failed`, which `cobalt_category_t` does not override, says so
of every number but zero.
-/
namespace Cobalt.Err

/-- `enum class error` (error.hpp:14-22) -/
inductive Error where
  | movedFrom
  | detached
  | completedUnexpected
  | waitNotReady
  | alreadyAwaited
  | allocationFailed
deriving DecidableEq, Repr

/-- The enumerators have no initialisers: they count from zero. -/
def Error.toNat : Error → Nat
  | .movedFrom => 0
  | .detached => 1
  | .completedUnexpected => 2
  | .waitNotReady => 3
  | .alreadyAwaited => 4
  | .allocationFailed => 5

/-- A category: its id (error.hpp:27), and `failed`. -/
structure Category where
  id : Nat
  failed : Nat → Bool

/-- `cobalt_category_t` (error.hpp:25-60) with the `failed` of its base. -/
def cobaltCategory : Category := ⟨0x7d4c7b49d8a4fd, fun ev => ev != 0⟩

/-- `system::error_code` -/
structure Code where
  value : Nat
  cat : Category

/-- `error_code::failed`, `explicit operator bool` -/
def Code.failed (c : Code) : Bool := c.cat.failed c.value

/-- `make_error_code` (error.cpp:16-19) -/
def makeErrorCode (e : Error) : Code := ⟨e.toNat, cobaltCategory⟩

/-- `cobalt_category_t::message` (error.hpp:30-54) -/
def message : Nat → String
  | 0 => "moved from"
  | 1 => "detached"
  | 2 => "completed unexpected"
  | 3 => "wait not ready"
  | 4 => "already awaited"
  | 5 => "allocation failed"
  | _ => "unknown cobalt error"

/-- The functions of exception.cpp (:15-67): the code in the exception each gives. -/
inductive Fn where
  | moved_from_exception
  | detached_exception
  | completed_unexpected
  | wait_not_ready
  | already_awaited
  | allocation_failed
deriving DecidableEq, Repr

def Fn.code : Fn → Code
  | .moved_from_exception => makeErrorCode .movedFrom
  | .detached_exception => makeErrorCode .detached
  | .completed_unexpected => makeErrorCode .completedUnexpected
  | .wait_not_ready => makeErrorCode .waitNotReady
  | .already_awaited => makeErrorCode .alreadyAwaited
  -- :60-66
  | .allocation_failed => makeErrorCode .alreadyAwaited

end Cobalt.Err
