/-!
# Model of files

Sources: `src/io/random_access_file.cpp`, `src/io/stream_file.cpp`, with asio's native files
and without (the fallback on a stream descriptor).

Simplifications: a file is the list of its bytes, without holes. Transfers of the fallback are
done when they are initiated, which is what a stream descriptor does for a regular file. How
many bytes a transfer moves at most is left to the environment (`k`); errors of the device are
not modelled. A transfer by asio's native file at an offset is `pread`/`pwrite` at it, and its
stream file keeps the position itself; both are what POSIX and asio say of them.
-/
namespace Cobalt.File

/-- An open file: bytes and position. -/
structure F where
  data : List Nat
  pos : Nat := 0
deriving DecidableEq, Repr

/-- Errors, by their number. -/
inductive Errno where
  | einval
  | enxio
deriving DecidableEq, Repr

/-- Value of a 64 bit unsigned passed for an `int` parameter. -/
def toInt (n : Nat) : Int :=
  let w : Nat := n % 2 ^ 32
  if w < 2 ^ 31 then (w : Int) else (w : Int) - 2 ^ 32

/-- Move to `p`, which must not be negative. -/
def F.goto (f : F) (p : Int) : Except Errno F :=
  if p < 0 then .error .einval else .ok { f with pos := p.toNat }

/-- POSIX `lseek(fd, offset, whence)` with the numbers of Linux: 0 `SEEK_SET`, 1 `SEEK_CUR`,
2 `SEEK_END`, 3 `SEEK_DATA`, 4 `SEEK_HOLE`. -/
def F.lseek (f : F) (offset whence : Int) : Except Errno F :=
  if whence = 0 then f.goto offset
  else if whence = 1 then f.goto (f.pos + offset)
  else if whence = 2 then f.goto (f.data.length + offset)
  else if whence = 3 then
    if offset < 0 ∨ f.data.length ≤ offset then .error .enxio else f.goto offset
  else if whence = 4 then
    if offset < 0 ∨ f.data.length ≤ offset then .error .enxio else f.goto f.data.length
  else .error .einval

/-- Put the bytes at the position: what was there is replaced, a gap is filled by zeros. -/
def patch (data : List Nat) (at_ : Nat) (bytes : List Nat) : List Nat :=
  let d := data ++ List.replicate (at_ - data.length) 0
  d.take at_ ++ bytes ++ d.drop (at_ + bytes.length)

/-- `read(fd, …)` of up to `n` bytes, of which the device moves at most `k`. -/
def F.read (f : F) (n k : Nat) : F × List Nat :=
  let r := (f.data.drop f.pos).take (min n k)
  ({ f with pos := f.pos + r.length }, r)

/-- `write(fd, bytes)`, of which the device moves at most `k`. Nothing is written and the file
not extended if that is no byte. -/
def F.write (f : F) (bytes : List Nat) (k : Nat) : F × Nat :=
  match bytes.take k with
  | [] => (f, 0)
  | b :: l => ({ data := patch f.data f.pos (b :: l), pos := f.pos + (l.length + 1) }, l.length + 1)

/-! ## Random access -/

/-- `initiate_read_some_at_` without native files: `initiate_async_read_some_at_helper`
(random_access_file.cpp:80-92). The arguments of `lseek` are in the order of the code,
`SEEK_SET` is 0. -/
def F.readAt (f : F) (offset n k : Nat) : F × Except Errno (List Nat) :=
  match f.lseek 0 (toInt offset) with
  | .error e => (f, .error e)
  | .ok f => let r := f.read n k; (r.1, .ok r.2)

/-- `initiate_write_some_at_` without native files: `initiate_async_write_some_at_helper`
(random_access_file.cpp:94-105). -/
def F.writeAt (f : F) (offset : Nat) (bytes : List Nat) (k : Nat) : F × Except Errno Nat :=
  match f.lseek 0 (toInt offset) with
  | .error e => (f, .error e)
  | .ok f => let r := f.write bytes k; (r.1, .ok r.2)

/-- `initiate_read_some_at_` with native files (random_access_file.cpp:41-44). -/
def F.readAtNative (f : F) (offset n k : Nat) : F × Except Errno (List Nat) :=
  (f, .ok ({ f with pos := offset }.read n k).2)

/-- `initiate_write_some_at_` with native files (random_access_file.cpp:45-48). -/
def F.writeAtNative (f : F) (offset : Nat) (bytes : List Nat) (k : Nat) : F × Except Errno Nat :=
  let r := { f with pos := offset }.write bytes k
  ({ f with data := r.1.data }, .ok r.2)

/-! ## Seeking -/

/-- What a call of `seek` gives. -/
inductive Sought where
  | at_ (p : Nat)
  | error (e : Errno)
  /-- throws `system_error` -/
  | throw (e : Errno)
deriving DecidableEq, Repr

/-- `seek_basis` -/
inductive Whence where
  | start
  | current
  | end_
deriving DecidableEq, Repr

def Whence.num : Whence → Int
  | .start => 0
  | .current => 1
  | .end_ => 2

/-- `stream_file::seek` without native files (stream_file.cpp:105-111). -/
def F.seek (f : F) (offset : Int) (w : Whence) : F × Sought :=
  match f.lseek offset w.num with
  | .error e => (f, .error e)
  | .ok f => (f, .at_ 0)

/-- `stream_file::seek` with native files (stream_file.cpp:43-48): the overload of asio's
`seek` without an `error_code` is called, `ec` is never set. -/
def F.seekNative (f : F) (offset : Int) (w : Whence) : F × Sought :=
  match f.lseek offset w.num with
  | .error e => (f, .throw e)
  | .ok f => (f, .at_ f.pos)

end Cobalt.File
