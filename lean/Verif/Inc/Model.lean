import Verif.Inc.Table

/-!
# Including headers

What the preprocessor and the compiler do with a list of `#include`s of headers of the library. A
header that is included is looked for by its guard: if the macro is defined, the file is skipped to
its end; if not, the macro is defined and the file is read, with the headers it includes read where
it includes them.

The model is over any table of headers (`World`), so that what is proved of the headers of the
library (`lib`, from `Table.lean`) can be set beside what is proved of headers whose guards differ.

Simplified: the declarations of one header are one thing, declared when the end of the last
declaration is reached, and a header uses the declarations of every header it includes before its
own. Whether a compiler accepts the declarations themselves is not modelled.
-/

namespace Cobalt.Inc

/-- A set of headers. -/
structure World (H G : Type) where
  /-- the macro whose definition makes the file be skipped -/
  guard : H → G
  /-- what the file includes before its declarations -/
  before : H → List H
  /-- the headers whose declarations its declarations use -/
  uses : H → List H
  /-- what the file includes after its declarations -/
  after : H → List H

/-- The headers of the library (`Table.lean`). -/
def lib : World Hdr Guard := ⟨guard, before, uses, after⟩

/-- A translation unit that is being read. -/
structure St (H G : Type) where
  /-- the macros that are defined -/
  defined : List G
  /-- the headers whose declarations have been read -/
  known : List H
  /-- the compiler has given an error: a declaration used one that was not there, was there twice,
  or the includes were nested too deeply -/
  bad : Bool

variable {H G : Type} [DecidableEq H] [DecidableEq G]

/-- The declarations of `h` are read: all the declarations they use must be there, and they must
not be there themselves. -/
def declare (w : World H G) (h : H) (s : St H G) : St H G :=
  ⟨s.defined, h :: s.known,
    s.bad || (w.uses h).any (fun x => !s.known.contains x) || s.known.contains h⟩

/-- `#include <h>`, where `n` more levels of nesting are allowed: the guard, then the includes, the
declarations, and the includes after them (`#ifndef`, `#define`, …, `#endif` around each file,
e.g. `io/stream.hpp:8-38`). -/
def enter (w : World H G) : Nat → H → St H G → St H G
  | 0, _, s => { s with bad := true }
  | n + 1, h, s =>
    if s.defined.contains (w.guard h) then s
    else
      let s : St H G := { s with defined := w.guard h :: s.defined }
      let s := (w.before h).foldl (fun s x => enter w n x s) s
      let s := declare w h s
      (w.after h).foldl (fun s x => enter w n x s) s

/-- How deep includes may be nested: 200, as in the compilers. -/
def depth : Nat := 200

/-- A translation unit that includes the headers `hs`, in this order. -/
def unit (w : World H G) (hs : List H) : St H G :=
  hs.foldl (fun s h => enter w depth h s) ⟨[], [], false⟩

end Cobalt.Inc
