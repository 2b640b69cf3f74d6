/-!
# Model of `include/boost/cobalt/io/buffer.hpp`

`mutable_buffer_sequence` (lines 23-257) and `const_buffer_sequence` (lines
262-503) have the same code up to the element type; one model serves both.

Simplifications: a buffer is an address range, its contents are not modelled
(the sequence never reads them); the io_uring `registered_` union member
(lines 27-33, 247-251) is the same storage as `head_` and is not modelled;
sizes are unbounded naturals (address ranges of a real process fit in 64 bits,
and the code only subtracts after comparing).
-/
namespace Cobalt.Io

/-- `asio::mutable_buffer` / `asio::const_buffer`: a data pointer and a size.
The default buffer (used at buffer.hpp:93, 96) is null and empty. -/
structure Buf where
  data : Nat := 0
  size : Nat := 0
deriving DecidableEq, Repr

/-- `asio::mutable_buffer::operator+=(n)`, used at buffer.hpp:82 and 100:
advances by `min n size` (asio's documented contract). -/
def Buf.advance (b : Buf) (n : Nat) : Buf :=
  let offset := min n b.size
  { data := b.data + offset, size := b.size - offset }

/-- `mutable_buffer_sequence`: members `head_` and `tail_` (buffer.hpp:254-256). -/
structure Seq where
  head : Buf := {}
  tail : List Buf := []
deriving DecidableEq, Repr

/-- The constructor from a span (buffer.hpp:67-77). -/
def Seq.ofSpan : List Buf → Seq
  | [] => {}
  | b :: bs => { head := b, tail := bs }

/-- `buffer_count` (buffer.hpp:25). -/
def Seq.bufferCount (s : Seq) : Nat := s.tail.length + 1

/-- The loop at buffer.hpp:86-88: the final `idx` and `n`, given the part of
the tail not yet visited. -/
def skipIdx : List Buf → Nat → Nat × Nat
  | [], n => (0, n)
  | b :: bs, n =>
    if n > b.size then
      let r := skipIdx bs (n - b.size)
      (r.1 + 1, r.2)
    else (0, n)

/-- `operator+=(n)` (buffer.hpp:79-105, and 319-345 for const sequences).
`none` is undefined behaviour (indexing the span out of range, line 99). -/
def Seq.advance (s : Seq) (n : Nat) : Option Seq :=
  if n < s.head.size then
    some { s with head := s.head.advance n }
  else
    let r := skipIdx s.tail (n - s.head.size)
    let tail' := if r.1 = s.tail.length then [] else s.tail
    if tail'.isEmpty then some { head := {}, tail := tail' }
    else
      match tail'[r.1]? with
      | none => none
      | some b => some { head := b.advance r.2, tail := tail'.drop (r.1 + 1) }

/-- What `visit` (buffer.hpp:234-245) passes on: the whole sequence, or just
the head buffer when it is the only one. -/
inductive Visited where
  | whole (s : Seq)
  | single (b : Buf)
deriving DecidableEq, Repr

/-- `visit` (buffer.hpp:234-245, 479-491). -/
def Seq.visit (s : Seq) : Visited :=
  if s.bufferCount > 1 then .whole s else .single s.head

/-! ## Iterators (buffer.hpp:107-218, 347-462) -/

/-- `const_iterator`: `offset_` is a `std::size_t`, here 64 bits wide. -/
structure Iter where
  head : Buf
  tail : List Buf
  offset : BitVec 64
deriving DecidableEq

/-- `std::numeric_limits<std::size_t>::max()` (buffer.hpp:118). -/
def npos : BitVec 64 := BitVec.allOnes 64

/-- `begin()` (buffer.hpp:221). -/
def Seq.begin (s : Seq) : Iter := { head := s.head, tail := s.tail, offset := npos }

/-- `end()` (buffer.hpp:223). -/
def Seq.end (s : Seq) : Iter :=
  { head := s.head, tail := s.tail, offset := BitVec.ofNat 64 s.tail.length }

/-- `operator*` (buffer.hpp:121-124). `none`: out of range, undefined. -/
def Iter.deref (i : Iter) : Option Buf :=
  if i.offset = npos then some i.head else i.tail[i.offset.toNat]?

/-- `operator++` (buffer.hpp:132-136). -/
def Iter.inc (i : Iter) : Iter := { i with offset := i.offset + 1#64 }

/-- `operator--` (buffer.hpp:145-149). -/
def Iter.dec (i : Iter) : Iter := { i with offset := i.offset - 1#64 }

/-- `operator+(difference_type)` (buffer.hpp:158-163): `size_t += ptrdiff_t`. -/
def Iter.add (i : Iter) (d : Int) : Iter := { i with offset := i.offset + BitVec.ofInt 64 d }

/-- `operator-(difference_type)` (buffer.hpp:165-170). -/
def Iter.sub (i : Iter) (d : Int) : Iter := { i with offset := i.offset - BitVec.ofInt 64 d }

/-- `operator[]` (buffer.hpp:184-188). -/
def Iter.index (i : Iter) (n : Int) : Option Buf :=
  let idx := i.offset + BitVec.ofInt 64 n
  if idx = npos then some i.head else i.tail[idx.toNat]?

/-- `operator-(const_iterator)` (buffer.hpp:190-193): signed difference of the
offsets read as `ptrdiff_t`. The subtraction itself is taken in `Int`. -/
def Iter.distance (i j : Iter) : Int := i.offset.toInt - j.offset.toInt

/-- `operator==` (buffer.hpp:201-205), for iterators into one sequence the
`tail_.data()` component is equal, so it is not modelled. -/
def Iter.eq (i j : Iter) : Bool :=
  i.head == j.head && i.tail.length == j.tail.length && i.offset == j.offset

/-- `operator<=>` (buffer.hpp:195-199), for two iterators of the same sequence
only the offsets differ and they are compared as unsigned. -/
def Iter.lt (i j : Iter) : Bool := i.offset.ult j.offset

end Cobalt.Io
