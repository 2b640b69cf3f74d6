import Verif.Io.TransferModel
/-!
# Model of cancelling `io::read` and `io::write`

Sources: `src/io/read.cpp:16-55`, `src/io/write.cpp:14-52`,
`include/boost/cobalt/composition.hpp:15-24, 128-134`, `include/boost/cobalt/this_coro.hpp:96-98`.

The composed operation as it is seen from outside: it waits for a partial transfer, which completes
with `[ec, n]`, and at any time signals are emitted.

Simplifications: the filter of the cancellation state (`enable_total_cancellation`) lets every emission
pass. A partial transfer that completes while it is started is one that completes at once afterwards.
-/
namespace Cobalt.Io

structure Op where
  buf : Seq
  offset : Nat
  /-- bytes moved (`m`, read.cpp:18) -/
  m : Nat := 0
  cs : CancelState
  res : Result := .pending

inductive OpEv where
  /-- somebody emits on signal `g` -/
  | emit (g : Nat)
  /-- the partial transfer completes -/
  | complete (ec : Option Nat) (n : Nat)
deriving DecidableEq, Repr

/-- The test of the loop and what comes after it (read.cpp:19, 29-32). -/
def Op.test (o : Op) : Op :=
  if o.buf.bufferSize > 0 && !o.cs.cancelled then o
  else if o.cs.cancelled then { o with res := .done (some aborted) o.m }
  else { o with res := .done none o.m }

/-- The operation is started with a handler that has a slot of the signal `slot`, if any. -/
def Op.start (slot : Option Nat) (buf : Seq) (offset : Nat) : Op :=
  Op.test { buf, offset, cs := compositionPromise slot }

def Op.step (o : Op) : OpEv → Op
  | .emit g => { o with cs := o.cs.emit g }
  | .complete ec n =>
    if o.res = .pending then
      match ec with
      | some e => { o with m := o.m + n, res := .done (some e) (o.m + n) }
      | none =>
        match o.buf.advance n with
        | none => { o with m := o.m + n, res := .ub }
        | some b => Op.test { o with m := o.m + n, buf := b, offset := addOffset o.offset n }
    else o

def Op.run (slot : Option Nat) (buf : Seq) (offset : Nat) (es : List OpEv) : Op :=
  es.foldl Op.step (Op.start slot buf offset)

end Cobalt.Io
