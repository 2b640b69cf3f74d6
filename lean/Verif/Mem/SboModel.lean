/-!
# Model of `detail::sbo_resource`

Source: `include/boost/cobalt/detail/sbo_resource.hpp:16-150` (the PMR variant; the
other differs only in calling `operator new`/`operator delete` as upstream).

Addresses are natural numbers, `std::size_t` is 64 bits: the one addition that
can wrap around (line 38) does so here. Pointer arithmetic inside the buffer
cannot. Simplification: the contents of memory are not modelled.
-/
namespace Cobalt.Mem

/-- `alignof(std::max_align_t)`. -/
def maxAlign : Nat := 16

/-- `align_as_max_(size)` (sbo_resource.hpp:34-41) in 64 bit arithmetic. -/
def alignAsMax (size : Nat) : Nat :=
  let diff := size % maxAlign
  if diff > 0 then (size + maxAlign - diff) % 2 ^ 64 else size

/-- `block_` (sbo_resource.hpp:19-25), the only data member besides upstream. -/
structure Sbo where
  p : Nat
  avail : Nat
  size : Nat
  fragmented : Bool
deriving DecidableEq, Repr

/-- The constructor (sbo_resource.hpp:65-75) with `align_as_max_()` (lines 42-61). -/
def Sbo.make (buffer size : Nat) : Sbo :=
  let diff := buffer % maxAlign
  if diff > 0 then
    let padding := maxAlign - diff
    if padding ≥ size then { p := buffer + padding, avail := 0, size := 0, fragmented := false }
    else { p := buffer + padding, avail := size - padding, size := size - padding, fragmented := false }
  else { p := buffer, avail := size, size := size, fragmented := false }

/-- `do_allocate` (sbo_resource.hpp:87-106): the address in the buffer, or `none`
when the request is passed on to upstream. -/
def Sbo.allocate (s : Sbo) (size : Nat) : Sbo × Option Nat :=
  let sz := alignAsMax size
  if sz ≤ s.avail && !s.fragmented then
    ({ s with avail := s.avail - sz }, some (s.p + s.size - s.avail))
  else (s, none)

/-- `do_deallocate` (sbo_resource.hpp:108-141); the flag says whether the call is
passed on to upstream. -/
def Sbo.deallocate (s : Sbo) (p size : Nat) : Sbo × Bool :=
  if s.p ≤ p ∧ p < s.p + s.size then
    let sz := alignAsMax size
    let fragmented := s.fragmented || decide (s.p + s.size - s.avail ≠ p + sz)
    let avail := s.avail + sz
    ({ s with avail := avail, fragmented := if avail = s.size then false else fragmented }, false)
  else (s, true)

end Cobalt.Mem
