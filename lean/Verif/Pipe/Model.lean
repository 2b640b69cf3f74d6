import Verif.Chan.ForModel
/-!
# A chain of coroutines connected by channels

Sources: `include/boost/cobalt/channel.hpp:30-206` and `include/boost/cobalt/impl/channel.hpp:34-323`, in the
model of `Verif.Chan.Model`.

There are `n` channels and `n + 1` coroutines. Coroutine 0 writes 0, 1, 2, ... to channel 0. Coroutine `k` with
`0 < k < n` is `for (;;) co_await out.write(co_await in.read());` with channel `k - 1` as `in` and channel `k` as
`out`. Coroutine `n` reads from channel `n - 1`. An operation that fails throws, which ends the coroutine. The
operations are temporaries: they are destroyed as soon as the await ends, that is before anything else happens.

Simplification: a coroutine that is resumed may wait before it begins its next operation; the code does not, so
its schedules are some of those of the model.
-/
namespace Cobalt.Pipe

/-- Where a coroutine is. -/
inductive At where
  /-- about to begin the next turn of its loop -/
  | between
  /-- it waits for read number `i` of its channel -/
  | reading (i : Nat)
  /-- it has a value to write -/
  | has (v : Nat)
  /-- it waits for write number `j` -/
  | writing (j : Nat)
  /-- left by an exception -/
  | ended
deriving DecidableEq, Repr

structure St where
  ch : Nat → Chan.St
  /-- what the writes to a channel carry, by their numbers -/
  vals : Nat → List Nat := fun _ => []
  pos : Nat → At := fun _ => .between
  /-- what a coroutine has obtained: the values of its reads; the first one makes up its own -/
  got : Nat → List Nat := fun _ => []

/-- Channels with these limits. -/
def St.init (cap : Nat → Nat) : St := { ch := fun k => Chan.St.init (cap k) }

/-- How write `j` ended, if it did. -/
def resultOfW (log : List Chan.Obs) (j : Nat) : Option Chan.WRes :=
  log.findSome? fun | .doneW i r => if i = j then some r else none | _ => none

/-- The coroutine that reads from channel `k` goes on if its read has ended (impl/channel.hpp:163-201). -/
def St.settleR (n : Nat) (s : St) (k : Nat) : St :=
  match s.pos (k + 1) with
  | .reading i =>
    match Chan.resultOf (s.ch k).log i with
    | some (.value w) =>
      let v := (s.vals k).getD w 0
      { s with ch := Chan.upd s.ch k ((s.ch k).step (.dropR i))
               got := Chan.upd s.got (k + 1) (s.got (k + 1) ++ [v])
               pos := Chan.upd s.pos (k + 1) (if k + 1 < n then .has v else .between) }
    | some _ => { s with ch := Chan.upd s.ch k ((s.ch k).step (.dropR i)), pos := Chan.upd s.pos (k + 1) .ended }
    | none => s
  | _ => s

/-- The coroutine that writes to channel `k` goes on if its write has ended (impl/channel.hpp:278-323). -/
def St.settleW (s : St) (k : Nat) : St :=
  match s.pos k with
  | .writing j =>
    match resultOfW (s.ch k).log j with
    | some .ok => { s with ch := Chan.upd s.ch k ((s.ch k).step (.dropW j)), pos := Chan.upd s.pos k .between }
    | some _ => { s with ch := Chan.upd s.ch k ((s.ch k).step (.dropW j)), pos := Chan.upd s.pos k .ended }
    | none => s
  | _ => s

/-- Something happens to channel `k`. -/
def St.on (n : Nat) (s : St) (k : Nat) (e : Chan.Ev) : St :=
  (St.settleR n { s with ch := Chan.upd s.ch k ((s.ch k).step e) } k).settleW k

/-- Coroutine `k` goes on. -/
def St.go (n : Nat) (s : St) (k : Nat) (conn : Bool) : St :=
  match s.pos k with
  | .between =>
    if k = 0 then
      { s with got := Chan.upd s.got 0 (s.got 0 ++ [(s.got 0).length])
               pos := Chan.upd s.pos 0 (.has (s.got 0).length) }
    else
      let i := (s.ch (k - 1)).nextR
      St.on n { s with ch := Chan.upd s.ch (k - 1) ((s.ch (k - 1)).step .mkR), pos := Chan.upd s.pos k (.reading i) }
        (k - 1) (.awaitR i conn false [])
  | .has v =>
    let j := (s.ch k).nextW
    St.on n { s with ch := Chan.upd s.ch k ((s.ch k).step .mkW), vals := Chan.upd s.vals k (s.vals k ++ [v])
                     pos := Chan.upd s.pos k (.writing j) }
      k (.awaitW j conn false [])
  | _ => s

/-- What others do to a channel: the executor runs a resumption, somebody cancels or interrupts an operation,
or closes the channel. -/
def outer : Chan.Ev → Bool
  | .run _ | .cancelR _ | .cancelW _ | .intR _ | .intW _ | .close => true
  | _ => false

inductive Ev where
  /-- coroutine `k` goes on; `conn`: its cancellation slot is connected -/
  | go (k : Nat) (conn : Bool)
  /-- something happens to channel `k` -/
  | chan (k : Nat) (e : Chan.Ev)
deriving DecidableEq, Repr

/-- Events that are not possible do nothing. -/
def St.step (n : Nat) (s : St) : Ev → St
  | .go k conn => if k ≤ n ∧ (k = n → k ≠ 0) then s.go n k conn else s
  | .chan k e => if k < n ∧ outer e = true then s.on n k e else s

/-- The chain of `n` channels with limits `cap` after the events `es`. -/
def run (n : Nat) (cap : Nat → Nat) (es : List Ev) : St := es.foldl (St.step n) (St.init cap)

end Cobalt.Pipe
