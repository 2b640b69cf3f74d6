import Verif.Inc.Xfer

/-!
# C87: whole buffers can be read from and written to every device

`read`, `write`, `read_at` and `write_at` "read until a buffer is full" and "write the full buffer"
(`doc/reference/io/read.adoc`, `doc/reference/io/write.adoc`). Each of them goes with a member
function of the devices, which reads or writes some of the buffer and returns an operation
(`io/stream.hpp`, `io/random_access_device.hpp`). A user relies on being able to call each with
every device that has the member function.

`write_at` does not: its requirement asks for the operation of a stream (`io/write.hpp:51`), so no
device can be given to it.
-/

namespace Cobalt.Inc.Xfer

/-- What a device that can be used with a function has: the member function, with the operation the
abstract classes of the library declare for it (`io/stream.hpp:21,27`,
`io/random_access_device.hpp:21,27`). -/
def Has (d : Dev) : Fn → Prop
  | .write => d .writeSome = some .writeOp
  | .read => d .readSome = some .readOp
  | .writeAt => d .writeSomeAt = some .writeAtOp
  | .readAt => d .readSomeAt = some .readAtOp

/-- What the functions are documented to return. -/
def documented : Fn → Ty
  | .write => .writeAll
  | .read => .readAll
  | .writeAt => .writeAllAt
  | .readAt => .readAllAt

/-- The property in full: each function can be called with each device that has what it takes. -/
def C87 : Prop := ∀ (f : Fn) (d : Dev), Has d f → call f d = .ok (documented f)

/-- **C87, as far as the library guarantees it:** all but `write_at`. -/
theorem C87_partial (f : Fn) (d : Dev) (hf : f ≠ .writeAt) (h : Has d f) :
    call f d = .ok (documented f) := by
  cases f with
  | writeAt => exact absurd rfl hf
  | write => exact (if_pos h).trans (if_pos h)
  | read => exact (if_pos h).trans (if_pos h)
  | readAt => exact (if_pos h).trans (if_pos h)

example : call .read stream = .ok .readAll := C87_partial .read stream (by decide) rfl
example : call .write writablePipe = .ok .writeAll :=
  C87_partial .write writablePipe (by decide) rfl
example : call .readAt randomAccess = .ok .readAllAt :=
  C87_partial .readAt randomAccess (by decide) rfl

/-- **C87, exactly.** A call is accepted exactly if the function is not `write_at` and the device has
what the function takes. -/
theorem C87_exact (f : Fn) (d : Dev) :
    (∃ t, call f d = .ok t) ↔ f ≠ .writeAt ∧ Has d f := by
  constructor
  · rintro ⟨t, h⟩
    unfold call at h
    split at h
    · rename_i h1
      split at h
      · rename_i h2
        cases f with
        | writeAt => rw [h1] at h2; exact absurd h2 (by decide)
        | write => exact ⟨by decide, h1⟩
        | read => exact ⟨by decide, h1⟩
        | readAt => exact ⟨by decide, h1⟩
      · cases h
    · cases h
  · rintro ⟨h1, h2⟩
    exact ⟨_, C87_partial f d h1 h2⟩

/-- **C87 fails:** a file with positions cannot be given to `write_at`. -/
theorem C87_violated : ¬ C87 :=
  fun h => absurd (h .writeAt randomAccess rfl) (by decide)

/-- Nor can any class, whatever its member functions return. -/
theorem C87_never_violated (d : Dev) (t : Ty) : call .writeAt d ≠ .ok t :=
  fun h => absurd rfl ((C87_exact .writeAt d).mp ⟨t, h⟩).1

end Cobalt.Inc.Xfer
