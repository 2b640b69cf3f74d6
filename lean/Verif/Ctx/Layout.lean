/-!
# Model of what `make_context` puts where

Source: `include/boost/cobalt/experimental/context.hpp`, lines 113-164 and 285-362.

`salloc.allocate()` gives a block of `size` bytes that ends at `sp`. The frame, with the promise, goes to its upper end; what is
below it is the stack of the fiber. Addresses and sizes are less than `w`, which is 2^64 or 2^32, and wrap
around.

Simplified: of Boost.Context is assumed that a fiber made from a `preallocated{p, sz, sctx}` uses the bytes from `p - sz` up to
`p`, and frees `sctx` when it ends; if making it fails it frees nothing.
-/
namespace Cobalt.Ctx

/-- Subtraction of `std::size_t`, and of pointers as the machine does it. -/
def wsub (w a b : Nat) : Nat := (a + w - b) % w

/-- `p` and `sz` of lines 291-298, for a frame of `fsz` bytes with alignment `al`. -/
def place (w sp size fsz al : Nat) : Nat × Nat :=
  let p := wsub w sp fsz
  let sz := wsub w size fsz
  let diff := p % al
  if diff ≠ 0 then (wsub w p diff, wsub w sz diff) else (p, sz)

/-- `stack_allocator::allocate` and `deallocate` (lines 120-135, 144-163): the block that begins at `b`, as a stack, and what is
given back for it. -/
def allocated (w b size : Nat) : Nat × Nat := ((b + size) % w, size)
def deallocated (w : Nat) (s : Nat × Nat) : Nat × Nat := (wsub w s.1 s.2, s.2)

/-! ## Steps that can fail -/

/-- What `make_context` does, in order. -/
inductive Mk where
  /-- the stack is allocated (line 287) -/
  | alloc
  /-- the frame and the promise are made (line 301) -/
  | promise
  /-- `get_return_object()` (line 303) -/
  | object
  /-- the function and the arguments are moved or copied (lines 315-318, 351) -/
  | args
  /-- the fiber is made on the stack, with the stack allocator and the invoker moved there (line 349) -/
  | fiber
  /-- `initial_suspend()`, or the first `resume` (lines 353-356) -/
  | start
deriving DecidableEq, Repr

def Mk.order : List Mk := [.alloc, .promise, .object, .args, .fiber, .start]

/-- What exists. -/
inductive Res where
  | stack
  | promise
  | object
  | fiber
deriving DecidableEq, Repr

/-- What a step that succeeds makes. The fiber owns the stack. -/
def Mk.makes (s : Mk) (r : List Res) : List Res :=
  match s with
  | .alloc => r ++ [.stack]
  | .promise => r ++ [.promise]
  | .object => r ++ [.object]
  | .args => r
  | .fiber => r.filter (· ≠ .stack) ++ [.fiber]
  | .start => r

/-- Leaving the function by an exception destroys its variables: `res`, if it was made. `owns`: the return object destroys the
coroutine when it goes, as that of a task or generator that was not started does; then the promise goes
(`context_frame::destroy`, lines 49-53), and the fiber, if there is one, with its stack. `sctx_`, `psc` and `f` are a plain
structure and pointers, and own nothing. -/
def leave (owns : Bool) (r : List Res) : List Res :=
  if r.contains .object then
    let r := r.filter (· ≠ .object)
    if owns then r.filter fun x => x ≠ .promise ∧ x ≠ .fiber else r
  else r

/-- `make_context` when the step `bad` throws, none if `none`. What is left. -/
def makeFrom (owns : Bool) (bad : Option Mk) : List Res → List Mk → List Res
  | r, [] => r
  | r, s :: ss => if bad = some s then leave owns r else makeFrom owns bad (s.makes r) ss

def makeAll (owns : Bool) (bad : Option Mk) : List Res := makeFrom owns bad [] Mk.order

end Cobalt.Ctx
