import Verif.Group.Model
/-!
# Model of a server that limits its sessions

The loops of example/echo_server.cpp:55-66 and example/ticker.cpp:294-308 on top of the model of `wait_group`
(`Verif.Group`). Connections are numbered in the order in which they come. A session is a promise that is added to the
group; it ends by an event of its own, with or without an exception.

Simplifications: accepting does not fail, and the server is not cancelled. What `with` does after the server has failed is
in the model of that (`Verif.Nurse`).
-/
namespace Cobalt.Limit

/-- The two loops: example/echo_server.cpp:58-65 looks again after it has waited, example/ticker.cpp:296-307 does not. -/
inductive Kind
  | echo
  | ticker
deriving DecidableEq, Repr

/-- Where the server is. -/
inductive Ph
  | top            -- at the head of the loop, or it can go on there
  | accept         -- it waits for a connection, or can take one
  | one            -- it waits in `wait_one`
  | failed (x : Nat)   -- it has ended with this exception
deriving DecidableEq, Repr

structure St where
  kind : Kind
  lim : Nat
  g : Group.St := {}
  ph : Ph := .top
  conns : Nat := 0             -- how many connections there were
  pend : List Nat := []        -- the ones that were not accepted yet, oldest first
  started : List Nat := []     -- the ones a session was started for, oldest first
deriving DecidableEq, Repr

inductive Ev
  | connect
  | finish (c : Nat) (o : Group.Out)   -- the session of connection `c` ends
  | turn (order : List Nat)            -- the server goes on; the order is for a race it starts
deriving DecidableEq, Repr

/-- `workers.size() == 10u` (echo_server.cpp:60), `sessions.size() >= limit` (ticker.cpp:298). -/
def St.full (s : St) : Bool :=
  match s.kind with
  | .echo => s.g.members.length == s.lim
  | .ticker => s.lim ≤ s.g.members.length

/-- What comes after `wait_one` has returned (echo_server.cpp:61, ticker.cpp:299). -/
def Kind.next : Kind → Ph
  | .echo => .top
  | .ticker => .accept

/-- Whether `wait_one` has returned, and how. -/
def St.waited (s : St) : St :=
  match s.g.wait with
  | some _ => { s with ph := .one }
  | none =>
    match s.g.log with
    | (_, .err x) :: _ => { s with ph := .failed x }
    | _ => { s with ph := s.kind.next }

def St.ok (s : St) : Ev → Bool
  | .connect => true
  | .finish c o => s.g.can (.complete c o)
  | .turn order =>
    match s.ph with
    | .top => !s.full || s.g.can (.waitOne 0 order)
    | .accept => !s.pend.isEmpty
    | _ => false

def St.act (s : St) : Ev → St
  | .connect => { s with conns := s.conns + 1, pend := s.pend ++ [s.conns] }
  | .finish c o =>
    let t := { s with g := s.g.step (.complete c o) }
    if s.ph = .one then t.waited else t
  | .turn order =>
    match s.ph with
    | .top => if s.full then St.waited { s with g := s.g.step (.waitOne 0 order) } else { s with ph := .accept }
    | _ =>
      match s.pend with
      | [] => s
      | c :: cs => { s with g := s.g.step (.push c), pend := cs, started := s.started ++ [c], ph := .top }

def St.step (s : St) (e : Ev) : St := if s.ok e then s.act e else s

/-- A server with this loop and limit, after the events. -/
def run (kind : Kind) (lim : Nat) (es : List Ev) : St := es.foldl St.step { kind, lim }

theorem run_snoc (kind : Kind) (lim : Nat) (es : List Ev) (e : Ev) : run kind lim (es ++ [e]) = (run kind lim es).step e := by
  simp [run]

end Cobalt.Limit
