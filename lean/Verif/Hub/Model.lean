import Verif.Net.Model
/-!
# The hub of the ticker example

Source: `example/ticker.cpp`: `handle_update` (lines 119-152), `handle_new_subscription` (154-172), the loop of
`run_blockchain_info` (187-204), the part of `run_session` that makes and reads the channel (257-264); channels as in
`Verif.Net.Model` and `Verif.Chan.Model`.

One coroutine, the hub, takes updates and subscriptions one after the other. It writes every update to the channel of each
subscriber, one after the other, and waits for each write. A subscriber is a session, which owns its channel and reads from
it again and again; the hub has weak pointers, which it locks while it writes (`chn.lock()`, line 134). A session that
leaves releases its channel; the hub passes over the channels that are gone.

Coroutine 0 is the hub, coroutine `i + 1` the session `i`, which reads channel `i`.

Simplifications: there is one symbol. The order in which the multimap has the subscribers is any; it comes with the update.
A channel that is gone stays in the state of the model, but nothing happens to it any more. A session leaves only when it
does not wait for its channel (lines 260-264: when writing to the socket fails or that is closed); nobody is cancelled. The
end of the hub and refused subscriptions are left out. The subscribers that are gone are not taken out of the map (lines
139-140), which makes no difference to what is written.
-/
namespace Cobalt.Hub
open Net (Act Res At)

/-- The coroutine that reads and the one that writes a channel. -/
def route (A : Nat → List Act) : Net.Prog where
  act p h := (A p).getD h.length .stop
  rd c := c + 1
  wr _ := 0

structure St where
  net : Net.St
  /-- the number of subscriptions so far -/
  n : Nat := 0
  /-- the session has released its channel -/
  left : Nat → Bool := fun _ => false
  /-- the subscribers the hub has not come to yet -/
  todo : List Nat := []
  /-- the updates so far -/
  log : List Nat := []
  /-- how many there were when the session subscribed -/
  since : Nat → Nat := fun _ => 0
  /-- ghost: what the coroutines have begun -/
  did : Nat → List Act := fun _ => []

/-- Channels with limit `cap`; the example has 1 (line 257). -/
def St.init (cap : Nat) : St := { net := Net.St.init fun _ => cap }

/-- Coroutine `p` does `a`. -/
def St.go (s : St) (p : Nat) (conn : Bool) (a : Act) : St :=
  { s with net := s.net.act (route fun _ => []) p conn a, did := Chan.upd s.did p (s.did p ++ [a]) }

inductive Ev where
  /-- the hub gets an update (lines 191-197) -/
  | update (v : Nat) (order : List Nat)
  /-- the hub gets a subscription (lines 198-202) -/
  | sub
  /-- the hub goes on with the next subscriber -/
  | hub (conn : Bool)
  /-- session `i` reads (line 262) -/
  | read (i : Nat) (conn : Bool)
  /-- session `i` ends -/
  | leave (i : Nat)
  /-- the executor runs the `k`-th of the resumptions posted for channel `c` -/
  | run (c k : Nat)
deriving DecidableEq, Repr

/-- The hub is in its loop. -/
def St.free (s : St) : Prop := s.net.pos 0 = .idle ∧ s.todo = []

instance (s : St) : Decidable s.free := inferInstanceAs (Decidable (_ ∧ _))

/-- The next subscriber: written to if it is still there (lines 133-137). -/
def St.next (s : St) (conn : Bool) : List Nat → St
  | [] => s
  | c :: cs => if s.left c then { s with todo := cs }
    else St.go { s with todo := cs } 0 conn (.write c (s.log.getLast?.getD 0))

/-- Events that are not possible do nothing. -/
def St.step (s : St) : Ev → St
  | .update v order => if s.free ∧ order.isPerm (List.range s.n) then { s with todo := order, log := s.log ++ [v] } else s
  | .sub => if s.free then { s with n := s.n + 1, since := Chan.upd s.since s.n s.log.length } else s
  | .hub conn => if s.net.pos 0 = .idle then s.next conn s.todo else s
  | .read i conn => if i < s.n ∧ s.left i = false ∧ s.net.pos (i + 1) = .idle then s.go (i + 1) conn (.read i) else s
  | .leave i => if s.net.pos (i + 1) = .idle then { s with left := Chan.upd s.left i true } else s
  | .run c k => { s with net := s.net.on (route fun _ => []) c (.run k) }

def St.steps (s : St) (es : List Ev) : St := es.foldl St.step s

def run (cap : Nat) (es : List Ev) : St := (St.init cap).steps es

end Cobalt.Hub
