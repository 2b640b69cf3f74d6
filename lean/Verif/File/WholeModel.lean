import Verif.File.Model
import Verif.Io.TransferModel
import Verif.Io.BufferSpec
/-!
# Model of whole reads and writes of files

`io::read`, `io::read_at` and `io::write` (src/io/read.cpp:16-55, src/io/write.cpp:14-31) on the files of
`Verif/File/Model.lean` (src/io/stream_file.cpp:50-65, 113-120, src/io/random_access_file.cpp:41-48, 80-114), and a
program that copies a file.

The memory the buffers refer to is part of the state. A partial transfer moves at least one byte if there is one to be
moved, and at most `k + 1`; how many is left to the environment, one number for each transfer. Reading at the end of
the file is `asio::error::eof`, as asio makes it of a `read` that returns 0.

Simplified: nothing is cancelled (a cancellation does not arrive, see C56), no errors of the device but the end of the
file. A sequence of more buffers than the system takes at once begins with one that is not empty.
-/
namespace Cobalt.File

open Io (Seq Buf Result)

/-- A file and the memory. -/
structure Sys where
  file : F
  mem : Nat → Nat

/-- The bytes are put into the cells, one after the other. -/
def store (mem : Nat → Nat) : List Nat → List Nat → Nat → Nat
  | c :: cs, b :: bs => store (fun a => if a = c then b else mem a) cs bs
  | _, _ => mem

/-- `asio::error::eof` -/
def eof : Nat := 2

/-- `read_some`: `eof` and the number of bytes. -/
def Sys.readSome (s : Sys) (buf : Seq) (k : Nat) : Sys × Option Nat × Nat :=
  let r := s.file.read buf.bufferSize (k + 1)
  if r.2.length = 0 ∧ 0 < buf.bufferSize then (s, some eof, 0)
  else ({ file := r.1, mem := store s.mem buf.cells r.2 }, none, r.2.length)

/-- `write_some` -/
def Sys.writeSome (s : Sys) (buf : Seq) (k : Nat) : Sys × Nat :=
  let r := s.file.write (buf.cells.map s.mem) (k + 1)
  ({ s with file := r.1 }, r.2)

/-- `read_all::initiate` (read.cpp:16-33); `m` is what has been read. -/
def readAll (s : Sys) (buf : Seq) (m : Nat) (ks : List Nat) : Sys × Result :=
  if 0 < buf.bufferSize then
    match ks with
    | [] => (s, .pending)
    | k :: ks =>
      let r := s.readSome buf k
      match r.2.1 with
      | some e => (r.1, .done (some e) (m + r.2.2))
      | none =>
        match buf.advance r.2.2 with
        | none => (r.1, .ub)
        | some buf => readAll r.1 buf (m + r.2.2) ks
  else (s, .done none m)

/-- `write_all::initiate` (write.cpp:14-31) -/
def writeAll (s : Sys) (buf : Seq) (m : Nat) (ks : List Nat) : Sys × Result :=
  if 0 < buf.bufferSize then
    match ks with
    | [] => (s, .pending)
    | k :: ks =>
      let r := s.writeSome buf k
      match buf.advance r.2 with
      | none => (r.1, .ub)
      | some buf => writeAll r.1 buf (m + r.2) ks
  else (s, .done none m)

/-- `read_some_at` on a random access file, with native files or without. -/
def Sys.readSomeAt (native : Bool) (s : Sys) (offset : Nat) (buf : Seq) (k : Nat) :
    Sys × Option Nat × Nat :=
  let r := if native then s.file.readAtNative offset buf.bufferSize (k + 1)
    else s.file.readAt offset buf.bufferSize (k + 1)
  match r.2 with
  | .error _ => ({ s with file := r.1 }, some 22, 0)
  | .ok bs =>
    if bs.length = 0 ∧ 0 < buf.bufferSize then ({ s with file := r.1 }, some eof, 0)
    else ({ file := r.1, mem := store s.mem buf.cells bs }, none, bs.length)

/-- `read_all_at::initiate` (read.cpp:35-55) -/
def readAllAt (native : Bool) (s : Sys) (offset : Nat) (buf : Seq) (m : Nat) (ks : List Nat) :
    Sys × Result :=
  if 0 < buf.bufferSize then
    match ks with
    | [] => (s, .pending)
    | k :: ks =>
      let r := s.readSomeAt native offset buf k
      match r.2.1 with
      | some e => (r.1, .done (some e) (m + r.2.2))
      | none =>
        match buf.advance r.2.2 with
        | none => (r.1, .ub)
        | some buf => readAllAt native r.1 (Io.addOffset offset r.2.2) buf (m + r.2.2) ks
  else (s, .done none m)

/-! ## Copying

```
while (true)
{
  auto [ec, n] = co_await cobalt::as_tuple(in.read_some(buffer));
  if (ec) break;
  co_await io::write(out, asio::buffer(buffer, n));
}
```
-/

structure Copy where
  src : F
  dst : F
  mem : Nat → Nat

/-- How far the loop got. -/
inductive Ended where
  | eof | pending | failed
deriving DecidableEq, Repr

/-- The loop. For each round how much is read at most and how the write is split. -/
def copy (b : Buf) : Copy → List (Nat × List Nat) → Copy × Ended
  | c, [] => (c, .pending)
  | c, (k, ks) :: rest =>
    let r := Sys.readSome ⟨c.src, c.mem⟩ ⟨b, []⟩ k
    match r.2.1 with
    | some _ => ({ c with src := r.1.file, mem := r.1.mem }, .eof)
    | none =>
      let w := writeAll ⟨c.dst, r.1.mem⟩ ⟨{ b with size := min b.size r.2.2 }, []⟩ 0 ks
      match w.2 with
      | .done none _ => copy b ⟨r.1.file, w.1.file, w.1.mem⟩ rest
      | .pending => (⟨r.1.file, w.1.file, w.1.mem⟩, .pending)
      | _ => (⟨r.1.file, w.1.file, w.1.mem⟩, .failed)

end Cobalt.File
