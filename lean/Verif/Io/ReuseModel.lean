import Verif.Io.TransferSpec
/-!
# Model of io operations that are awaited again

`write_op`, `read_op`, `write_at_op` and `read_at_op` (`include/boost/cobalt/io/ops.hpp`:23-176) are objects with the
public members `buffer` and, for the `_at` forms, `offset`; `write_all`, `read_all` and their `_at` forms
(`io/write.hpp`:19-27, 40-47, `io/read.hpp`) have one of those as the public member `step`. `co_await` on such an object
binds the awaitable to it by reference (`op.hpp`:32, 134-137), so the object stays with the user, who may await it again.

Simplification: as in `TransferModel`, the device is an oracle: the list of what the single transfers report. For the forms
without an offset the member `offset` of the model is not part of the object; where positions matter it is the position in
the stream.
-/
namespace Cobalt.Io

/-- The members of an operation a user can change (ops.hpp:25, 60, 95-96, 137-138). -/
structure Kept where
  offset : Nat := 0
  buffer : Seq
deriving DecidableEq, Repr

/-- How the loop of the documentation stands. -/
inductive Loop where
  /-- `sz` was 0, the loop has been left -/
  | ended (o : Kept)
  /-- `co_await` has thrown (`op.hpp`:83-88, `await_resume(as_result_tag{}).value(loc)`) -/
  | threw (e : Nat) (o : Kept)
  /-- the oracle is used up, the operation is still waiting -/
  | pending (o : Kept)
  /-- undefined behaviour in `+=` -/
  | ub
deriving DecidableEq, Repr

/-- The loop of `doc/reference/io/ops.adoc`:108-117:
```
auto sz = co_await wo;
while (sz > 0) { wo.buffer += sz; sz = co_await wo; }
```
`adv` adds `wo.offset += sz;`, which the `_at` forms need (write.cpp:46). Returns the transfers made and the outcome. -/
def docLoop (adv : Bool) (o : Kept) : List (Option Nat × Nat) → List Xfer × Loop
  | [] => ([], .pending o)
  | (ec, n) :: rest =>
    let x : Xfer := { offset := o.offset, buffer := o.buffer, n }
    match ec with
    | some e => ([x], .threw e o)
    | none =>
      if n = 0 then ([x], .ended o)
      else
        match o.buffer.advance n with
        | none => ([x], .ub)
        | some b =>
          let r := docLoop adv { offset := if adv then addOffset o.offset n else o.offset, buffer := b } rest
          (x :: r.1, r.2)

/-- What one `co_await` on a composed operation leaves behind. -/
structure Done where
  xs : List Xfer
  res : Result
  /-- the member `step` of the operation -/
  op : Kept
  /-- what the device will report later -/
  rest : List Step
deriving Repr

/-- `co_await` on a composed operation: the loop of write.cpp:16-25 and 36-46, read.cpp:18-27 and 37-48. It is the loop
`transfer`, with the member `step` kept: `initiate` is a member function that works on `this->step` (write.hpp:21), so
`step.buffer += n` and `step.offset += n` change the object of the user. Note that the return on an error
(write.cpp:21-22) comes before them. -/
def Kept.awaitAll (o : Kept) (m : Nat) : List Step → Done
  | [] => { xs := [], res := .pending, op := o, rest := [] }
  | st :: rest =>
    if o.buffer.bufferSize > 0 && !st.cancelled then
      let x : Xfer := { offset := o.offset, buffer := o.buffer, n := st.n }
      match st.ec with
      | some e => { xs := [x], res := .done (some e) (m + st.n), op := o, rest }
      | none =>
        match o.buffer.advance st.n with
        | none => { xs := [x], res := .ub, op := o, rest }
        | some b =>
          let r := Kept.awaitAll { offset := addOffset o.offset st.n, buffer := b } (m + st.n) rest
          { r with xs := x :: r.xs }
    else if st.cancelled then { xs := [], res := .done (some aborted) m, op := o, rest }
    else { xs := [], res := .done none m, op := o, rest }

/-- `k` awaits of the same composed operation, one after the other: all transfers, and the result of each await. -/
def Kept.awaits (o : Kept) : Nat → List Step → List Xfer × List Result
  | 0, _ => ([], [])
  | k + 1, steps =>
    let d := o.awaitAll 0 steps
    let r := d.op.awaits k d.rest
    (d.xs ++ r.1, d.res :: r.2)

end Cobalt.Io
