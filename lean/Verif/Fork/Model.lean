import Verif.Prom.Model
/-!
# Coroutines that start and await other coroutines

Sources: `include/boost/cobalt/promise.hpp:31-137` and `include/boost/cobalt/detail/promise.hpp:35-400`, in the model of
`Verif.Prom.Model`.

A coroutine that returns a `promise` is any program that starts further such coroutines and keeps their promises in local
variables, awaits these promises, awaits operations of its own (a timer, a socket), and at the end returns a value or
throws. What it does next may depend on everything that happened to it so far. The programs are told apart by a number,
the argument of the coroutine, so recursion is possible.

When a coroutine ends, its local variables are destroyed, so the promises of the coroutines it started, and then who
awaits it goes on (`final_suspend`, detail/promise.hpp:375-400).

Simplifications:
* A promise is eager (detail/promise.hpp:349): a coroutine that is started runs at once until it first waits. In the
  model it may also begin later, and a coroutine that is resumed may wait before it goes on; the schedules of the code
  are some of those of the model.
* What an operation gives depends on the operation only, not on when it ends.
* The promises are not moved and nobody cancels anything, except that destroying a promise cancels its coroutine.
* A frame, its promise and the await of that promise have the same number. The first coroutine has number 0; its promise
  is held, and not awaited, by somebody else.
-/
namespace Cobalt.Fork
open Prom (Out Got upd)

/-- What a coroutine does next. -/
inductive Act where
  /-- `promise<int> p = coroutine(b);` -/
  | start (b : Nat)
  /-- `co_await operation(x)` -/
  | op (x : Nat)
  /-- `co_await` of the promise of the `k`-th coroutine it has started -/
  | await (k : Nat)
  /-- it returns or throws -/
  | fin (o : Out)
deriving DecidableEq, Repr

/-- What came of it. -/
inductive Res where
  | started
  /-- an operation or a coroutine gave a value -/
  | val (v : Nat)
  /-- a coroutine threw -/
  | exc (e : Nat)
  /-- anything else: a value that was moved from, or an error of the library -/
  | bad
deriving DecidableEq, Repr

/-- The programs, by argument, and what the operations give. -/
structure Prog where
  act : Nat → List Res → Act
  op : Nat → Nat

inductive Pos where
  /-- about to go on -/
  | idle
  | onOp (x : Nat)
  /-- it awaits the promise of coroutine `r` -/
  | on (r : Nat)
  /-- it awaits a promise that is not there -/
  | lost
  | ended (o : Out)
deriving DecidableEq, Repr

structure St where
  prom : Prom.St
  arg : Nat → Nat
  hist : Nat → List Res := fun _ => []
  pos : Nat → Pos := fun _ => .idle
  /-- the coroutines a coroutine has started -/
  kids : Nat → List Nat := fun _ => []
  par : Nat → Nat := fun _ => 0
  /-- how many coroutines have been started -/
  next : Nat := 1

/-- The first coroutine is started with the argument `a` (detail/promise.hpp:349). -/
def St.init (a : Nat) : St := { prom := Prom.St.run [.create 0 0], arg := fun _ => a }

/-- What a coroutine sees of the end of an await (detail/promise.hpp:212-219). -/
def ofGot : Got → Res
  | .val v => .val v
  | .err (.user e) => .exc e
  | _ => .bad

/-- Who awaits coroutine `r` goes on, if the await has ended (detail/promise.hpp:212-219). -/
def St.settle (s : St) (p r : Nat) : St :=
  if s.pos p = .on r then
    match s.prom.aw r with
    | some { got := some g, .. } => { s with hist := upd s.hist p (s.hist p ++ [ofGot g]), pos := upd s.pos p .idle }
    | _ => s
  else s

/-- The promises in `rs` are destroyed (promise.hpp:62-66, detail/promise.hpp:158-162). -/
def drops (t : Prom.St) (rs : List Nat) : Prom.St := rs.foldl (fun t r => (t.step (.leave r)).step (.drop r)) t

/-- Coroutine `c` does something. -/
def St.act (s : St) (c : Nat) : Act → St
  | .start b => { s with
      prom := s.prom.step (.create s.next s.next), arg := upd s.arg s.next b, par := upd s.par s.next c
      kids := upd s.kids c (s.kids c ++ [s.next]), hist := upd s.hist c (s.hist c ++ [.started]), next := s.next + 1 }
  | .op x => { s with pos := upd s.pos c (.onOp x) }
  | .await k =>
    match (s.kids c)[k]? with
    | some r => St.settle { s with prom := s.prom.step (.await r r), pos := upd s.pos c (.on r) } c r
    | none => { s with pos := upd s.pos c .lost }
  | .fin o => St.settle { s with
      prom := (drops s.prom (s.kids c)).step (.finish c o), pos := upd s.pos c (.ended o) } (s.par c) c

inductive Ev where
  /-- coroutine `c` goes on -/
  | go (c : Nat)
  /-- the operation coroutine `c` waits for completes -/
  | complete (c : Nat)
deriving DecidableEq, Repr

/-- Events that are not possible do nothing. -/
def St.step (N : Prog) (s : St) : Ev → St
  | .go c => if c < s.next ∧ s.pos c = .idle then s.act c (N.act (s.arg c) (s.hist c)) else s
  | .complete c =>
    match s.pos c with
    | .onOp x => { s with hist := upd s.hist c (s.hist c ++ [.val (N.op x)]), pos := upd s.pos c .idle }
    | _ => s

/-- The first coroutine is started with argument `a` and then the events `es` happen. -/
def run (N : Prog) (a : Nat) (es : List Ev) : St := es.foldl (St.step N) (St.init a)

end Cobalt.Fork
