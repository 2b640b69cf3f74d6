/-!
# Model of the allocation of coroutine frames

Sources: `promise_memory_resource_base` (`this_coro.hpp:333-396`),
`allocate_coroutine`/`deallocate_coroutine` (`this_coro.hpp:398-483`),
`main_promise::operator new/delete` (`detail/main.hpp:53-82`) and
`composition_promise::operator new/delete` (`composition.hpp:95-126`).

Memory is bytewise: a byte is part of an object (and which byte of it), or
something else. Sizes and addresses are natural numbers: requests so large that
`size + header` wraps around at 64 bits are not modelled. Reading an object some
byte of which was not written as part of that object is undefined (`none`).
-/
namespace Cobalt.Mem.Frame

/-- What the code stores beside a frame. `who` names a memory resource or an
allocator. -/
inductive Obj where
  | res (who : Nat)
  | pair (who size : Nat)
  | alloc (who : Nat)
  | num (n : Nat)
deriving DecidableEq, Repr

abbrev Memory := Nat → Option (Obj × Nat)

def Memory.write (m : Memory) (a n : Nat) (o : Obj) : Memory :=
  fun x => if a ≤ x ∧ x < a + n then some (o, x - a) else m x

def Memory.read (m : Memory) (a n : Nat) : Option Obj :=
  match m a with
  | some (o, 0) => if ∀ i, i < n → m (a + i) = some (o, i) then some o else none
  | _ => none

/-- `sizeof(std::max_align_t)` (32 on x86-64 Linux), `sizeof(void*)`,
`sizeof(std::size_t)`, `alignof(std::max_align_t)`. -/
structure Plat where
  maxAlignT : Nat
  ptr : Nat
  sizeT : Nat
  alignMax : Nat
deriving DecidableEq, Repr

def x64 : Plat := ⟨32, 8, 8, 16⟩

/-- Facts about a platform: what the standard and line 455's `static_assert` say. -/
structure Plat.Ok (pl : Plat) : Prop where
  pos : 0 < pl.maxAlignT
  ptr : 0 < pl.ptr ∧ pl.ptr ≤ pl.maxAlignT
  sizeT : 0 < pl.sizeT ∧ pl.sizeT ≤ pl.alignMax
  align : pl.alignMax ∣ pl.maxAlignT

/-- `n / sizeof(max_align_t) + (n % sizeof(max_align_t) > 0 ? 1 : 0)`. -/
def units (pl : Plat) (n : Nat) : Nat := n / pl.maxAlignT + if n % pl.maxAlignT > 0 then 1 else 0

/-- The result of an `operator new`: bytes requested, the frame, memory. -/
structure New where
  bytes : Nat
  frame : Nat
  mem : Memory

/-- The call an `operator delete` makes: whom, which pointer, how many bytes. -/
structure Del where
  who : Nat
  p : Nat
  bytes : Nat
deriving DecidableEq, Repr

/-- this_coro.hpp:340-348, `p` is what the resource returns. -/
def resNewSized (pl : Plat) (who size p : Nat) (m : Memory) : New :=
  { bytes := size + pl.maxAlignT, frame := p + pl.maxAlignT, mem := m.write p pl.ptr (.res who) }

/-- this_coro.hpp:350-355. -/
def resDelSized (pl : Plat) (raw size : Nat) (m : Memory) : Option Del :=
  let p := raw - pl.maxAlignT
  match m.read p pl.ptr with
  | some (.res who) => some ⟨who, p, size + pl.maxAlignT⟩
  | _ => none

/-- `block_size` (lines 363-364, 378-379; composition.hpp:101-102, 116-117). -/
def blockUnits (pl : Plat) : Nat := units pl (pl.ptr + pl.sizeT)

/-- this_coro.hpp:357-371 and composition.hpp:95-109. -/
def resNew (pl : Plat) (who size p : Nat) (m : Memory) : New :=
  { bytes := size + blockUnits pl * pl.maxAlignT, frame := p + blockUnits pl * pl.maxAlignT
    mem := m.write p (pl.ptr + pl.sizeT) (.pair who size) }

/-- this_coro.hpp:373-388 and composition.hpp:111-126. -/
def resDel (pl : Plat) (raw : Nat) (m : Memory) : Option Del :=
  let p := raw - blockUnits pl * pl.maxAlignT
  match m.read p (pl.ptr + pl.sizeT) with
  | some (.pair who size) => some ⟨who, p, size + blockUnits pl * pl.maxAlignT⟩
  | _ => none

/-- this_coro.hpp:400-415. `sA` is `sizeof(AllocatorType)`, `sR` the size of the
rebound allocator that is stored. -/
def allocNewSized (pl : Plat) (sA sR who size p : Nat) (m : Memory) : New :=
  { bytes := (units pl sA + units pl size) * pl.maxAlignT, frame := p
    mem := m.write (p + units pl size * pl.maxAlignT) sR (.alloc who) }

/-- this_coro.hpp:418-434. -/
def allocDelSized (pl : Plat) (sA sR raw size : Nat) (m : Memory) : Option Del :=
  match m.read (raw + units pl size * pl.maxAlignT) sR with
  | some (.alloc who) => some ⟨who, raw, (units pl size + units pl sA) * pl.maxAlignT⟩
  | _ => none

/-- this_coro.hpp:439-461. -/
def allocNew (pl : Plat) (sA sR who size p : Nat) (m : Memory) : New :=
  { bytes := (units pl sA + units pl size + units pl pl.sizeT) * pl.maxAlignT
    frame := p + (units pl sA + units pl pl.sizeT) * pl.maxAlignT
    mem := (m.write p sR (.alloc who)).write (p + units pl sA * pl.maxAlignT) pl.sizeT (.num (units pl size)) }

/-- this_coro.hpp:464-481. -/
def allocDel (pl : Plat) (sA sR raw : Nat) (m : Memory) : Option Del :=
  match m.read (raw - units pl pl.sizeT * pl.maxAlignT) pl.sizeT with
  | some (.num n) =>
    let p := raw - units pl sA * pl.maxAlignT - units pl pl.sizeT * pl.maxAlignT
    match m.read p sR with
    | some (.alloc who) => some ⟨who, p, (n + units pl sA + units pl pl.sizeT) * pl.maxAlignT⟩
    | _ => none
  | _ => none

/-- main.hpp:57-65. `my_resource` is a static variable. -/
def mainNewSized (size p : Nat) (m : Memory) : New := { bytes := size, frame := p, mem := m }
def mainDelSized (who raw size : Nat) : Option Del := some ⟨who, raw, size⟩

/-- main.hpp:69. -/
def mainHeader (pl : Plat) : Nat := max pl.alignMax pl.sizeT

/-- main.hpp:67-74: nothing is stored. -/
def mainNew (pl : Plat) (size p : Nat) (m : Memory) : New :=
  { bytes := size + mainHeader pl, frame := p + mainHeader pl, mem := m }

/-- main.hpp:76-82. -/
def mainDel (pl : Plat) (who data : Nat) (m : Memory) : Option Del :=
  match m.read (data - mainHeader pl) pl.sizeT with
  | some (.num n) => some ⟨who, data, n⟩
  | _ => none

end Cobalt.Mem.Frame
