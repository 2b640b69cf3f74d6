import Verif.Prom.Model
/-!
# Trees of coroutines that are cancelled or abandoned

Sources: `include/boost/cobalt/promise.hpp:31-137` and `include/boost/cobalt/detail/promise.hpp:35-400`, in the model of
`Verif.Prom.Model`; `include/boost/cobalt/detail/forward_cancellation.hpp:14-41`;
`include/boost/cobalt/this_coro.hpp:90-158`; `include/boost/cobalt/concepts.hpp:41-59`.

A coroutine that returns a `promise` is any program that starts further such coroutines and keeps their promises in local
variables, awaits these promises, as often as it likes or never, awaits operations of its own, and at the end returns a
value or throws. When it ends, its local variables are destroyed, so the promises of the coroutines it started. That
cancels those that still run: the cancellation is remembered in the state of the coroutine and goes on to the operation
or to the coroutine it waits for.

Simplifications:
* A coroutine that is started, or resumed, may wait before it goes on; the schedules of the code are some of those of the
  model.
* What an operation gives if it was not told to stop depends on the operation only. One that was told to stop completes
  later, not inside the cancellation, and then it may or may not have been cancelled.
* Nobody resets the cancellation state or turns off `throw_if_cancelled` (see C53), all types of cancellation count
  as one, and promises are not moved or detached.
* The promise of a coroutine has the same number as the coroutine. The first coroutine has number 0; its promise is held,
  and not awaited, by somebody else, who may cancel or destroy it.
-/
namespace Cobalt.Tree
open Prom (Out Got upd)

/-- What a coroutine does next. -/
inductive Act where
  /-- `promise<int> p = coroutine(b);` -/
  | start (b : Nat)
  /-- `co_await operation(x)` -/
  | op (x : Nat)
  /-- `co_await` of the promise of the `k`-th coroutine it has started -/
  | await (k : Nat)
  /-- it returns or throws -/
  | fin (o : Out)
deriving DecidableEq, Repr

/-- What came of it. -/
inductive Res where
  | started
  /-- an operation or a coroutine gave a value -/
  | val (v : Nat)
  /-- a coroutine threw -/
  | exc (e : Nat)
  /-- the coroutine was cancelled -/
  | cancelled
  /-- anything else: a value that was moved from, an error of the library, or there is no such promise -/
  | bad
deriving DecidableEq, Repr

/-- The programs, by argument, and what the operations give. -/
structure Prog where
  act : Nat → List Res → Act
  op : Nat → Nat

inductive Pos where
  /-- about to go on -/
  | idle
  | onOp (x : Nat)
  /-- it awaits the promise of coroutine `r` -/
  | on (r : Nat)
  | ended (o : Out)
deriving DecidableEq, Repr

structure St where
  prom : Prom.St
  arg : Nat → Nat
  hist : Nat → List Res := fun _ => []
  pos : Nat → Pos := fun _ => .idle
  /-- the coroutines a coroutine has started -/
  kids : Nat → List Nat := fun _ => []
  par : Nat → Nat := fun _ => 0
  /-- how many coroutines have been started -/
  next : Nat := 1
  /-- the awaits of promises: how many, and the last of each coroutine -/
  awaits : Nat := 0
  aid : Nat → Nat := fun _ => 0
  /-- `state_.cancelled()` (this_coro.hpp:100-158) -/
  cancelled : Nat → Bool := fun _ => false
  /-- the operation the coroutine waits for was told to stop -/
  told : Nat → Bool := fun _ => false

/-- The first coroutine is started with the argument `a` (detail/promise.hpp:349). -/
def St.init (a : Nat) : St := { prom := Prom.St.run [.create 0 0], arg := fun _ => a }

/-- What a coroutine sees of the end of an await (detail/promise.hpp:212-219). -/
def ofGot : Got → Res
  | .val v => .val v
  | .err (.user e) => .exc e
  | _ => .bad

def St.result (s : St) (c : Nat) (r : Res) : St :=
  { s with hist := upd s.hist c (s.hist c ++ [r]), pos := upd s.pos c .idle }

/-- Who awaits coroutine `r` goes on, if the await has ended (detail/promise.hpp:212-219). -/
def St.settle (s : St) (p r : Nat) : St :=
  if s.pos p = .on r then
    match s.prom.aw (s.aid p) with
    | some { got := some g, .. } => s.result p (ofGot g)
    | _ => s
  else s

/-- The signal in the frame of coroutine `r` is emitted: its state is cancelled, and what it waits for is told
(this_coro.hpp:100-158, forward_cancellation.hpp:32-41). `depth` bounds the recursion; who awaits has a smaller number than
who is awaited, so it need not be more than the number of coroutines. -/
def St.emit (s : St) : Nat → Nat → St
  | 0, _ => s
  | depth + 1, r =>
    match s.pos r with
    | .onOp _ => { s with cancelled := upd s.cancelled r true, told := upd s.told r true }
    | .on q => St.emit { s with cancelled := upd s.cancelled r true } depth q
    | _ => { s with cancelled := upd s.cancelled r true }

/-- Something happens to the promise of coroutine `r` that may emit the signal. -/
def St.signal (s : St) (r : Nat) (e : Prom.Ev) : St :=
  if (s.prom.step e).signals r ≠ s.prom.signals r then St.emit { s with prom := s.prom.step e } s.next r
  else { s with prom := s.prom.step e }

/-- The promise of coroutine `r` is destroyed (promise.hpp:62-66, detail/promise.hpp:158-162). -/
def St.drop (s : St) (r : Nat) : St :=
  { s.signal r (.leave r) with prom := (s.signal r (.leave r)).prom.step (.drop r) }

def St.drops (s : St) (rs : List Nat) : St := rs.foldl St.drop s

/-- Coroutine `c` does something. If it is cancelled, `await_transform` throws (concepts.hpp:41-59). The local variables
are destroyed in reverse order. -/
def St.act (s : St) (c : Nat) : Act → St
  | .start b => { s with
      prom := s.prom.step (.create s.next s.next), arg := upd s.arg s.next b, par := upd s.par s.next c
      kids := upd s.kids c (s.kids c ++ [s.next]), hist := upd s.hist c (s.hist c ++ [.started]), next := s.next + 1 }
  | .op x => if s.cancelled c then s.result c .cancelled else { s with pos := upd s.pos c (.onOp x) }
  | .await k =>
    if s.cancelled c then s.result c .cancelled else
    match (s.kids c)[k]? with
    | some r => St.settle { s with
        prom := s.prom.step (.await s.awaits r), pos := upd s.pos c (.on r), aid := upd s.aid c s.awaits
        awaits := s.awaits + 1 } c r
    | none => s.result c .bad
  | .fin o => St.settle { s.drops (s.kids c).reverse with
      prom := (s.drops (s.kids c).reverse).prom.step (.finish c o), pos := upd s.pos c (.ended o) } (s.par c) c

inductive Ev where
  /-- coroutine `c` goes on -/
  | go (c : Nat)
  /-- the operation coroutine `c` waits for completes; `stop`: because it was told to, if so -/
  | complete (c : Nat) (stop : Bool)
  /-- the first coroutine is cancelled -/
  | cancel
  /-- its promise is destroyed -/
  | drop
deriving DecidableEq, Repr

/-- The operation coroutine `c` waits for completes. -/
def St.completed (N : Prog) (s : St) (c : Nat) (stop : Bool) (x : Nat) : St :=
  { s.result c (if stop && s.told c then .cancelled else .val (N.op x)) with told := upd s.told c false }

/-- Events that are not possible do nothing. -/
def St.step (N : Prog) (s : St) : Ev → St
  | .go c => if c < s.next ∧ s.pos c = .idle then s.act c (N.act (s.arg c) (s.hist c)) else s
  | .complete c stop =>
    match s.pos c with
    | .onOp x => s.completed N c stop x
    | _ => s
  | .cancel => s.signal 0 (.cancel 0)
  | .drop => s.drop 0

/-- The first coroutine is started with argument `a` and then the events `es` happen. -/
def run (N : Prog) (a : Nat) (es : List Ev) : St := es.foldl (St.step N) (St.init a)

end Cobalt.Tree
