import Verif.Io.BufferModel
/-!
# Model of `src/io/read.cpp` and `src/io/write.cpp`

`read_all`, `read_all_at`, `write_all`, `write_all_at` are composed operations:
coroutines that await a partial transfer in a loop. The four bodies
(read.cpp:16-33 and 35-55, write.cpp:14-31 `write_all` and 34-52 `write_all_at`)
are identical up to `step.offset += n` in the `_at` forms.

The underlying stream is an oracle: the list of what each partial transfer
reports. Simplification: a partial transfer is described by its result only;
that it moved exactly the first `n` bytes of the buffer it was given is the
contract of `read_some`/`write_some` and is used to define the trace.
-/
namespace Cobalt.Io

/-- What one pass of the loop sees: whether the operation's cancellation state
is set when it is tested (read.cpp:19 and 29; both tests of one pass happen
without a suspension between them), and the outcome `[ec, n]` of the partial
transfer if one is made (read.cpp:21). Error codes are numbers, `none` is
success. -/
structure Step where
  cancelled : Bool := false
  ec : Option Nat := none
  n : Nat := 0
deriving DecidableEq, Repr

/-- The error reported when the state is cancelled (`asio::error::operation_aborted`,
read.cpp:30); any fixed number will do. -/
def aborted : Nat := 125

/-- One partial transfer as seen by the stream: offset it was issued at, the
buffer it was given and the number of bytes it moved. -/
structure Xfer where
  offset : Nat
  buffer : Seq
  n : Nat
deriving Repr

/-- Outcome of running the operation against the oracle. -/
inductive Result where
  /-- completed with error code and byte count (`co_return {ec, m}`) -/
  | done (ec : Option Nat) (m : Nat)
  /-- the oracle list is used up, the operation is still waiting -/
  | pending
  /-- undefined behaviour in `+=` -/
  | ub
deriving DecidableEq, Repr

/-- `asio::buffer_size(step.buffer)` (read.cpp:19): sum over the iterated
buffers. -/
def Seq.bufferSize (s : Seq) : Nat := s.head.size + (s.tail.map Buf.size).sum

/-- `step.offset += n` on `std::uint64_t` (read.cpp:46). -/
def addOffset (offset n : Nat) : Nat := (offset + n) % 2 ^ 64

/-- The loop of `read_all_at::initiate` (read.cpp:35-55); `read_all` (16-33),
`write_all` and `write_all_at` (write.cpp) are the same with the offset ignored.
Returns the transfers made and the outcome. -/
def transfer (buf : Seq) (offset m : Nat) : List Step → List Xfer × Result
  | [] => ([], .pending)
  | st :: rest =>
    if buf.bufferSize > 0 && !st.cancelled then
      -- co_await step
      let x : Xfer := { offset, buffer := buf, n := st.n }
      let m := m + st.n
      match st.ec with
      | some e => ([x], .done (some e) m)
      | none =>
        match buf.advance st.n with
        | none => ([x], .ub)
        | some buf' =>
          let r := transfer buf' (addOffset offset st.n) m rest
          (x :: r.1, r.2)
    else if st.cancelled then ([], .done (some aborted) m)
    else ([], .done none m)

/-! ## Cancellation of composed operations (`include/boost/cobalt/composition.hpp`) -/

/-- The cancellation slot a coroutine promise observes: `none` if it is not
connected to any signal. -/
structure CancelState where
  source : Option Nat
  cancelled : Bool
deriving DecidableEq, Repr

/-- `promise_cancellation_base(CancellationSlot slot = {}, …)`
(this_coro.hpp:96-98). -/
def CancelState.ofSlot (slot : Option Nat) : CancelState := { source := slot, cancelled := false }

/-- `composition_promise(Ts && ... args) : handler(…)` (composition.hpp:130-134):
the base class is default constructed, the slot of the handler (`handlerSlot`)
is not passed on. -/
def compositionPromise (_handlerSlot : Option Nat) : CancelState := CancelState.ofSlot none

/-- Emitting on signal number `sig`: reaches exactly the states whose source is
a slot of that signal (asio contract). -/
def CancelState.emit (s : CancelState) (sig : Nat) : CancelState :=
  if s.source = some sig then { s with cancelled := true } else s

end Cobalt.Io
