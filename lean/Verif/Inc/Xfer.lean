/-!
# The function templates that transfer a whole buffer

`io/read.hpp` and `io/write.hpp` declare a function template each for a stream and for a device with
positions. A call is resolved by the requirement of the template, then its body is instantiated.

Modelled: classes by the types their member functions return, the requirements, the bodies up to
the types they need. What the operations then do is in `Verif/Io/TransferModel.lean`.
-/

namespace Cobalt.Inc.Xfer

/-- The types that take part. `other n` are all other types. -/
inductive Ty where
  /-- `io/ops.hpp:23` -/
  | writeOp
  /-- `io/ops.hpp:60` -/
  | readOp
  /-- `io/ops.hpp:97` -/
  | writeAtOp
  /-- `io/ops.hpp:135` -/
  | readAtOp
  /-- `io/write.hpp:19` -/
  | writeAll
  /-- `io/read.hpp:19` -/
  | readAll
  /-- `io/write.hpp:40` -/
  | writeAllAt
  /-- `io/read.hpp:40` -/
  | readAllAt
  | other (n : Nat)
  deriving DecidableEq, Repr

/-- The member functions a device can have. -/
inductive Mem where
  | writeSome
  | readSome
  | writeSomeAt
  | readSomeAt
  deriving DecidableEq, Repr

/-- A class: what its member functions return when they are called with a buffer and, for the latter
two, an offset before it. `none`: there is no such member function. -/
abbrev Dev := Mem → Option Ty

/-- The function templates. -/
inductive Fn where
  | write
  | read
  | writeAt
  | readAt
  deriving DecidableEq, Repr

/-- The member function a template calls (`io/write.hpp:31,36,51,56`, `io/read.hpp:31,36,52,57`). -/
def mem : Fn → Mem
  | .write => .writeSome
  | .read => .readSome
  | .writeAt => .writeSomeAt
  | .readAt => .readSomeAt

/-- The type the requirement asks the member function to return, with `std::same_as`
(`io/write.hpp:31`, `io/read.hpp:31`, `io/write.hpp:51`, `io/read.hpp:52`). -/
def asked : Fn → Ty
  | .write => .writeOp
  | .read => .readOp
  | .writeAt => .writeOp
  | .readAt => .readAtOp

/-- The type the template returns (`io/write.hpp:34`, `io/read.hpp:34`, `io/write.hpp:54`,
`io/read.hpp:55`). -/
def gives : Fn → Ty
  | .write => .writeAll
  | .read => .readAll
  | .writeAt => .writeAllAt
  | .readAt => .readAllAt

/-- The type the constructor of an operation takes; its step (`io/write.hpp:22,43`,
`io/read.hpp:22,43`). -/
def step : Ty → Option Ty
  | .writeAll => some .writeOp
  | .readAll => some .readOp
  | .writeAllAt => some .writeAtOp
  | .readAllAt => some .readAtOp
  | _ => none

/-- What a call comes to. -/
inductive Call where
  /-- the compiler finds no function to call -/
  | noFunction
  /-- the body of the template is in error -/
  | badBody
  /-- the call has this type -/
  | ok (t : Ty)
  deriving DecidableEq, Repr

/-- A call of `f` with a device of the class `d`. There is no conversion between the operations, as
their constructors take a buffer (`io/ops.hpp:31,68,105,143`). -/
def call (f : Fn) (d : Dev) : Call :=
  if d (mem f) = some (asked f) then
    if d (mem f) = step (gives f) then .ok (gives f) else .badBody
  else .noFunction

/-- `io::stream` (`io/stream.hpp:18-32`), and with it `stream_socket`, `stream_file`, `serial_port`
and `ssl::stream`. -/
def stream : Dev
  | .writeSome => some .writeOp
  | .readSome => some .readOp
  | _ => none

/-- `io::readable_pipe` (`io/pipe.hpp:51`). -/
def readablePipe : Dev
  | .readSome => some .readOp
  | _ => none

/-- `io::writable_pipe` (`io/pipe.hpp:81`). -/
def writablePipe : Dev
  | .writeSome => some .writeOp
  | _ => none

/-- `io::random_access_device` (`io/random_access_device.hpp:18-32`), and with it
`random_access_file` (`io/random_access_file.hpp:38,43`). -/
def randomAccess : Dev
  | .writeSomeAt => some .writeAtOp
  | .readSomeAt => some .readAtOp
  | _ => none

end Cobalt.Inc.Xfer
