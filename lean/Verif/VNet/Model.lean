import Verif.VChan.Model
import Verif.Net.Model
/-!
# A network of coroutines that synchronise with `channel<void>`

Sources: `include/boost/cobalt/channel.hpp:209-321`, `include/boost/cobalt/impl/channel.hpp:337-424` and
`src/channel.cpp:18-123`, in the model of `Verif.VChan.Model`.

As `Verif.Net.Model`, with `channel<void>` in place of `channel<T>`: any number of coroutines and channels, and a
coroutine is any program that reads and writes, one thing at a time. The operations are temporaries, destroyed as soon
as the await ends.

Simplifications: as in `Verif.Net.Model`; moreover nobody closes a channel (what happens then is C12).
-/
namespace Cobalt.VNet
open Net (At)

/-- What a coroutine does next. -/
inductive Act where
  | read (c : Nat) | write (c : Nat)
  /-- nothing any more -/
  | stop
deriving DecidableEq, Repr

/-- The programs, and who reads and who writes a channel. -/
structure Prog where
  act : Nat → List VChan.Res → Act
  rd : Nat → Nat
  wr : Nat → Nat

structure St where
  ch : Nat → VChan.St
  pos : Nat → At := fun _ => .idle
  /-- what came of the things a coroutine did -/
  hist : Nat → List VChan.Res := fun _ => []

/-- Channels with these limits (a `std::size_t` each, channel.hpp:209-321). -/
def St.init (cap : Nat → Nat) : St := { ch := fun c => VChan.St.init (BitVec.ofNat 64 (cap c)) }

/-- How read number `i` ended, if it has. -/
def resR (log : List VChan.Obs) (i : Nat) : Option VChan.Res :=
  log.findSome? fun | .doneR j r => if j = i then some r else none | _ => none

/-- How write number `i` ended, if it has. -/
def resW (log : List VChan.Obs) (i : Nat) : Option VChan.Res :=
  log.findSome? fun | .doneW j r => if j = i then some r else none | _ => none

/-- The coroutine that reads from channel `c` goes on if its read has ended (src/channel.cpp:48-79). -/
def St.settleR (N : Prog) (s : St) (c : Nat) : St :=
  match (s.pos (N.rd c)).rdOn c with
  | some i =>
    match resR (s.ch c).log i with
    | some r =>
      { s with ch := Chan.upd s.ch c ((s.ch c).step (.dropR i))
               hist := Chan.upd s.hist (N.rd c) (s.hist (N.rd c) ++ [r])
               pos := Chan.upd s.pos (N.rd c) .idle }
    | none => s
  | none => s

/-- The coroutine that writes to channel `c` goes on if its write has ended (src/channel.cpp:92-123). -/
def St.settleW (N : Prog) (s : St) (c : Nat) : St :=
  match (s.pos (N.wr c)).wrOn c with
  | some j =>
    match resW (s.ch c).log j with
    | some r =>
      { s with ch := Chan.upd s.ch c ((s.ch c).step (.dropW j))
               hist := Chan.upd s.hist (N.wr c) (s.hist (N.wr c) ++ [r])
               pos := Chan.upd s.pos (N.wr c) .idle }
    | none => s
  | none => s

/-- Something happens to channel `c`. -/
def St.on (N : Prog) (s : St) (c : Nat) (e : VChan.Ev) : St :=
  (St.settleR N { s with ch := Chan.upd s.ch c ((s.ch c).step e) } c).settleW N c

/-- Coroutine `p` does something. -/
def St.act (N : Prog) (s : St) (p : Nat) (conn : Bool) : Act → St
  | .read c =>
    St.on N { s with ch := Chan.upd s.ch c ((s.ch c).step .mkR)
                     pos := Chan.upd s.pos p (.reading c (s.ch c).nextR) } c (.awaitR (s.ch c).nextR conn false [])
  | .write c =>
    St.on N { s with ch := Chan.upd s.ch c ((s.ch c).step .mkW)
                     pos := Chan.upd s.pos p (.writing c (s.ch c).nextW) } c (.awaitW (s.ch c).nextW conn false [])
  | .stop => s

/-- Events that are not possible do nothing. -/
def St.step (N : Prog) (s : St) : Net.Ev → St
  | .go p conn => if s.pos p = .idle then s.act N p conn (N.act p (s.hist p)) else s
  | .run c k => s.on N c (.run k)

/-- The network with limits `cap` after the events `es`. -/
def run (N : Prog) (cap : Nat → Nat) (es : List Net.Ev) : St := es.foldl (St.step N) (St.init cap)

end Cobalt.VNet
