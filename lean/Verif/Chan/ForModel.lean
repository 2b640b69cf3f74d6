import Verif.Chan.Spec
/-!
# Model of `BOOST_COBALT_FOR(v, channel_reader(c))`

Sources: `include/boost/cobalt/async_for.hpp:11-16` and
`include/boost/cobalt/channel.hpp:324-341`.

The loop is `for (auto && id = channel_reader(c); id; ) if (v = co_await id; false) {} else body`:
test `operator bool`, then await `c.read()`, run the body with the value. A read
that fails throws, which leaves the loop. The body is not modelled beyond its
argument: what it does to the channel is other events. The reading operation is
a temporary, so it is destroyed as soon as the await ends.
-/
namespace Cobalt.Chan

/-- Where the loop is: about to test `operator bool`, waiting for read number
`i`, finished because the test failed, or left by an exception. -/
inductive Phase where
  | head | waiting (i : Nat) | finished | thrown
deriving DecidableEq, Repr

/-- Loop state: the channel, where the loop is, the values the body ran with. -/
structure LoopSt where
  s : St
  phase : Phase := .head
  seen : List Nat := []

/-- How read `i` ended, if it did. -/
def resultOf (log : List Obs) (i : Nat) : Option RRes :=
  log.findSome? fun | .doneR j r => if j = i then some r else none | _ => none

/-- If the awaited read has ended, the operation is destroyed and the loop goes
on: `v = co_await id` and the body, or the exception. -/
def LoopSt.advance (l : LoopSt) : LoopSt :=
  match l.phase with
  | .waiting i =>
    match resultOf l.s.log i with
    | some (.value w) => { s := l.s.step (.dropR i), phase := .head, seen := l.seen ++ [w] }
    | some _ => { l with s := l.s.step (.dropR i), phase := .thrown }
    | none => l
  | _ => l

/-- One test of `operator bool` (channel.hpp:336: `chan_ && chan_->is_open()`)
and, if it holds, the start of `co_await id` (channel.hpp:331-334). -/
def LoopSt.turn (l : LoopSt) (conn : Bool) : LoopSt :=
  match l.phase with
  | .head =>
    if l.s.closed then { l with phase := .finished }
    else
      let i := l.s.nextR
      { l with s := (l.s.step .mkR).step (.awaitR i conn false []), phase := .waiting i }.advance
  | _ => l

/-- Events around the loop: the consumer's own turn, or anything else. -/
inductive LEv where
  | turn (conn : Bool)
  | other (e : Ev)
deriving DecidableEq, Repr

def LoopSt.step (l : LoopSt) : LEv → LoopSt
  | .turn conn => l.turn conn
  | .other e => { l with s := l.s.step e }.advance

/-- The loop over a new channel with limit `cap`, after the events `es`. -/
def loop (cap : Nat) (es : List LEv) : LoopSt := es.foldl LoopSt.step { s := St.init cap }

/-- Events of other parties: the loop is the only reader. -/
def Ev.notReading : Ev → Bool
  | .mkR | .awaitR .. | .dropR _ => false
  | _ => true

/-- Programs of the loop and one producer that satisfy the assumptions of C02:
nobody else reads, at most one write is suspended, a write is awaited where it is
made, interrupted operations are destroyed at once. -/
def LProg (l : LoopSt) : List LEv → Prop
  | [] => True
  | e :: es =>
    (match e with
      | .turn _ => l.s.noStale
      | .other e => e.notReading = true ∧ (l.s.noStale ∨ e.isDrop = true) ∧ Prompt l.s [e] ∧ Spsc l.s [e]) ∧
    LProg (l.step e) es

end Cobalt.Chan
