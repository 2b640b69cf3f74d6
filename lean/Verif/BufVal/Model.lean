import Verif.Io.BufferModel
/-!
# Model of buffer sequences as objects

include/boost/cobalt/io/buffer.hpp:23-105, 225-257 (`mutable_buffer_sequence`) and 262-345, 470-503
(`const_buffer_sequence`, the same code), and the operations that keep one: include/boost/cobalt/io/ops.hpp:24-57,
60-93.

Beside `Verif/Io/BufferModel.lean`, which takes the tail as a list, here are the union of `registered_` and `head_`
(lines 247-256) and the span `tail_`, which refers to an array of the caller.

Simplifications: the addresses and sizes are naturals; an array is alive with all its buffers or gone; the identity of
a registered buffer is a number, 0 is the default `registered_buffer_id`. The storage of an array is not reused.
-/
namespace Cobalt.BufVal

open Io (Buf skipIdx)

/-- How the library has been compiled. `uring`: `BOOST_ASIO_HAS_IO_URING` is defined. `strict`: reading the inactive
member of the union is undefined, as the standard has it ([class.union], [basic.life]; the two classes have no common
initial sequence); otherwise the bytes are reinterpreted, as gcc documents it, and as
`asio::mutable_registered_buffer { mutable_buffer buffer_; registered_buffer_id id_; }` begins with a buffer,
`registered_.buffer_` and `head_` are the same. -/
structure Cfg where
  uring : Bool
  strict : Bool
deriving DecidableEq, Repr

/-- `std::span<const asio::mutable_buffer>`: `len` buffers of the array `arr` from `off` on. -/
structure Span where
  arr : Nat := 0
  off : Nat := 0
  len : Nat := 0
deriving DecidableEq, Repr

/-- The members (buffer.hpp:247-256). `plain`: the active member of the union is `head_`; without io_uring it is the
only one. `head` is `head_` or `registered_.buffer_`, `id` is `registered_.id_`. -/
structure Sq where
  plain : Bool := false
  head : Buf := {}
  id : Nat := 0
  tail : Span := {}
deriving DecidableEq, Repr

/-- What the program does. -/
inductive Ev where
  /-- an array of buffers comes into being -/
  | array (bs : List Buf)
  /-- it is destroyed -/
  | gone (a : Nat)
  /-- a buffer of it is assigned -/
  | put (a i : Nat) (b : Buf)
  /-- `v` is made of a registered buffer (line 28, 35) -/
  | reg (v id : Nat) (b : Buf)
  /-- `v` is made of a buffer (lines 29-32, 36) -/
  | plain (v : Nat) (b : Buf)
  /-- `v` is made of an array (lines 52-77) -/
  | span (v a : Nat)
  /-- `v` is made or assigned as a copy of `w` (lines 33, 37, 40-49) -/
  | copy (v w : Nat)
  /-- `v += n` (lines 79-105) -/
  | adv (v n : Nat)
  /-- `visit(v, f)`, where `f` looks at all the buffers (lines 225-245) -/
  | use (v : Nat)
deriving DecidableEq, Repr

structure St where
  cfg : Cfg
  arrs : List (Option (List Buf)) := []
  v : Nat → Sq := fun _ => {}
  /-- what `use` has been given: the sequence, the buffers, and the identity if it is a registered one -/
  log : List (Nat × List Buf × Nat) := []
  ub : Bool := false

def upd {α : Type} (f : Nat → α) (i : Nat) (x : α) : Nat → α := fun j => if j = i then x else f j

theorem upd_apply {α : Type} (f : Nat → α) (i : Nat) (x : α) (j : Nat) : upd f i x j = if j = i then x else f j := rfl

/-- The buffers a span refers to, if the array is there. -/
def St.look (s : St) (t : Span) : Option (List Buf) :=
  if t.len = 0 then some []
  else (s.arrs[t.arr]?.join).map fun bs => (bs.drop t.off).take t.len

/-- The constructors from arrays and spans (lines 52-77): an empty one leaves `registered_{}` active. -/
def Sq.ofSpan (a : Nat) : List Buf → Sq
  | [] => {}
  | b :: bs => { plain := true, head := b, tail := if bs.length = 0 then {} else ⟨a, 1, bs.length⟩ }

/-- `operator+=` (lines 79-105), given the buffers of the tail. -/
def Sq.adv (q : Sq) (tl : List Buf) (n : Nat) : Sq :=
  if n < q.head.size then { q with plain := true, head := q.head.advance n }
  else
    let r := skipIdx tl (n - q.head.size)
    if r.1 = tl.length then { q with plain := true, head := {}, tail := {} }
    else { q with plain := true, head := (tl.getD r.1 {}).advance r.2,
                  tail := ⟨q.tail.arr, q.tail.off + (r.1 + 1), q.tail.len - (r.1 + 1)⟩ }

/-- `registered_` may be read. -/
def Cfg.regOk (c : Cfg) (q : Sq) : Bool := !(c.uring && c.strict && q.plain)

/-- `head_` may be read. -/
def Cfg.headOk (c : Cfg) (q : Sq) : Bool := !(c.uring && c.strict && !q.plain)

/-- What `is_registered` says (lines 225-232). -/
def Cfg.isReg (c : Cfg) (q : Sq) : Bool := c.uring && q.id != 0

/-- A copy (lines 33, 37, 43-47): with io_uring `registered_` is read, and active in the copy. -/
def Cfg.dup (c : Cfg) (q : Sq) : Sq := if c.uring then { q with plain := false } else q

def St.fail (s : St) : St := { s with ub := true }

/-- `v += n`: `head_.size()` is read first (line 81), then `tail_[0]` if there is one (line 87). -/
def St.advance (s : St) (v n : Nat) : St :=
  if !s.cfg.headOk (s.v v) then s.fail
  else if n < (s.v v).head.size then { s with v := upd s.v v ((s.v v).adv [] n) }
  else match s.look (s.v v).tail with
    | none => s.fail
    | some tl => { s with v := upd s.v v ((s.v v).adv tl n) }

/-- `visit` (lines 234-245): more than one buffer, then the sequence itself, whose iterators read `head_` and the
tail (lines 220-223); otherwise `is_registered` reads `registered_`, and then `registered_` or `head_` is handed on. -/
def St.visit (s : St) (v : Nat) : St :=
  if (s.v v).tail.len ≠ 0 then
    if !s.cfg.headOk (s.v v) then s.fail
    else match s.look (s.v v).tail with
      | none => s.fail
      | some tl => { s with log := s.log ++ [(v, (s.v v).head :: tl, 0)] }
  else if !s.cfg.regOk (s.v v) then s.fail
  else if s.cfg.isReg (s.v v) then { s with log := s.log ++ [(v, [(s.v v).head], (s.v v).id)] }
  else if !s.cfg.headOk (s.v v) then s.fail
  else { s with log := s.log ++ [(v, [(s.v v).head], 0)] }

def St.act (s : St) (e : Ev) : St :=
  match e with
  | .array bs => { s with arrs := s.arrs ++ [some bs] }
  | .gone a => { s with arrs := s.arrs.set a none }
  | .put a i b => { s with arrs := s.arrs.modify a (Option.map (·.set i b)) }
  | .reg v id b =>
    { s with v := upd s.v v { plain := !s.cfg.uring, head := b, id := if s.cfg.uring then id else 0 } }
  | .plain v b => { s with v := upd s.v v { plain := true, head := b } }
  | .span v a => match s.arrs[a]?.join with
    | none => s
    | some bs => { s with v := upd s.v v (Sq.ofSpan a bs) }
  | .copy v w => if !s.cfg.regOk (s.v w) then s.fail else { s with v := upd s.v v (s.cfg.dup (s.v w)) }
  | .adv v n => s.advance v n
  | .use v => s.visit v

/-- After undefined behaviour nothing is said. -/
def St.step (s : St) (e : Ev) : St := if s.ub then s else s.act e

def St.init (c : Cfg) : St := { cfg := c }

def St.steps (s : St) : List Ev → St
  | [] => s
  | e :: es => (s.step e).steps es

def exec (c : Cfg) (es : List Ev) : St := (St.init c).steps es

end Cobalt.BufVal
