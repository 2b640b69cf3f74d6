/-!
# Model of `detail::monotonic_resource`

Source: `include/boost/cobalt/detail/monotonic_resource.hpp:21-105`. It is the arena
for child coroutine frames of gather/join/race when the library is built without
polymorphic memory resources (fork.hpp:39-45, 109).

Addresses are natural numbers; `size + padding` (line 77) wraps around at 64 bits
as in the code. The sizes given to `operator new` do not: a request that large
fails with `bad_alloc`, which is not modelled. Memory contents are not modelled;
where the bookkeeping block is placed is.
-/
namespace Cobalt.Mem

/-- `alignof(block_)` and `sizeof(block_)` on a 64 bit target (lines 24-32). -/
def blockAlign : Nat := 8
def blockSize : Nat := 40

/-- A chunk. `block_` (lines 24-32) plus where it came from: `header` is the address
of the `block_` object itself (`none` for the member `buffer_`), `owned` the number
of bytes at `p` that belong to the arena. -/
structure Chunk where
  p : Nat
  avail : Nat
  size : Nat
  aligned : Nat
  owned : Nat
  header : Option Nat
deriving DecidableEq, Repr

/-- The resource: `head_` and the chunks before it, newest first; the last one is
`buffer_`. -/
structure Mono where
  head : Chunk
  older : List Chunk
  chunkSize : Nat
deriving DecidableEq, Repr

/-- The constructor with a buffer (lines 37-40). -/
def Mono.ofBuffer (buffer size : Nat) : Mono :=
  { head := { p := buffer, avail := size, size, aligned := 0, owned := size, header := none }
    older := [], chunkSize := size }

/-- The constructor with a chunk size (lines 42-43). -/
def Mono.ofChunkSize (n : Nat) : Mono :=
  { head := { p := 0, avail := 0, size := 0, aligned := 0, owned := 0, header := none }
    older := [], chunkSize := n }

/-- The alignment used (line 71). -/
def Mono.realAlign (align : Nat) : Nat := max align blockAlign

/-- Line 93: how much a new chunk offers. -/
def Mono.memSize (m : Mono) (size : Nat) : Nat := max m.chunkSize size

/-- `allocate` (lines 69-104): the address and the resource afterwards. `mem` is what
`operator new` returns if it is called. -/
def Mono.allocate (m : Mono) (size align_ mem : Nat) : Nat × Mono :=
  let align := Mono.realAlign align_
  let padding := align - size % align
  let needed := (size + padding) % 2 ^ 64
  if needed ≤ m.head.avail then
    let offset := m.head.size - m.head.avail
    (m.head.p + offset + padding, { m with head := { m.head with avail := m.head.avail - needed } })
  else
    let memSize := m.memSize size
    let offset := memSize % blockAlign
    let padding := if offset = 0 then 0 else blockAlign - offset
    let rawSize := memSize + padding
    let allocSize := rawSize + blockSize
    (mem, { m with
      head := { p := mem, avail := rawSize - size, size := rawSize, aligned := align
                owned := allocSize, header := some (mem + memSize + offset) }
      older := m.head :: m.older })

/-- `release` (lines 53-67): the `operator delete` calls (pointer, size, alignment)
and the resource afterwards. Oldest chunk first, as linked by `next`. -/
def Mono.release (m : Mono) : List (Nat × Nat × Nat) × Mono :=
  let all := (m.head :: m.older).reverse
  match all with
  | [] => ([], m)
  | b :: rest => (rest.map fun c => (c.p, blockSize + c.size, c.aligned),
      { m with head := { b with avail := b.size }, older := [] })

end Cobalt.Mem
