/-!
# Work handed to threads through channels

Source: `example/thread.cpp`: `worker` (lines 31-54), `work` (56-66), `co_main` (68-97); `join` as in `Verif.Comb.Model`
(`detail/join.hpp:152-158` for the cancellation after a failure), cancelled coroutines as in `Verif.Cst.Model`
(`this_coro.hpp: promise_throw_if_cancelled_base`).

Several coroutines `work` run on one thread. Each makes calls one after the other: it sends a request with a pointer to its
own channel `res` to the channel `rc` and receives the answer from `res`. Worker threads receive the requests, compute and
send the answer. All channels are asio's `concurrent_channel` without a buffer: whoever comes first waits. `join` awaits the
coroutines; when one of them fails it cancels the others. When all have ended the main coroutine closes `rc` and the workers
end.

Simplifications: an operation on a channel is atomic (they lock a mutex). The outcome of a call is given with the program. A
resumption that is posted and the code up to the next `co_await` are one step. The order in which the arguments of `join` are
evaluated is any. Destroying a channel ends the operations waiting in it with an error, which `worker` ignores (line 52). The
workers themselves never fail, and nobody cancels the whole.
-/
namespace Cobalt.Rpc

/-- The outcome of a call. -/
inductive Out where
  | ok (r : Nat)
  | fail (e : Nat)
deriving DecidableEq, Repr

/-- `works` coroutines, `calls i` the calls of the coroutine `i`, `workers` threads. -/
structure Prog where
  works : Nat
  workers : Nat
  calls : Nat → List Out

/-- A coroutine `work`. -/
inductive W where
  /-- it has not been called -/
  | new
  /-- it waits in `rc.async_send` -/
  | sending
  /-- its request has been taken, its resumption is posted -/
  | sent
  /-- it waits in `res.async_receive` -/
  | receiving
  /-- its operation has been cancelled, its resumption is posted -/
  | stop
  /-- it has an answer, its resumption is posted -/
  | got (o : Out)
  /-- it has ended: all calls made -/
  | done
  /-- with the exception of a call -/
  | failed (e : Nat)
  /-- because it was cancelled -/
  | aborted
deriving DecidableEq, Repr

/-- The frame of the coroutine, and `res` with it, has been destroyed. -/
def W.dead : W → Bool
  | .done | .failed _ | .aborted => true
  | _ => false

/-- A worker. -/
inductive K where
  /-- it is about to receive -/
  | idle
  /-- it waits in `work.async_receive` -/
  | waiting
  /-- it has a request of the coroutine `i` and computes -/
  | busy (i : Nat)
  /-- it waits in `respond_to->async_send` -/
  | answering (i : Nat)
  | ended
deriving DecidableEq, Repr

structure St where
  w : Nat → W := fun _ => .new
  /-- what the calls of a coroutine returned so far -/
  res : Nat → List Nat := fun _ => []
  /-- the coroutine has been cancelled -/
  told : Nat → Bool := fun _ => false
  k : Nat → K := fun _ => .idle
  /-- the coroutines waiting in `rc` -/
  senders : List Nat := []
  /-- the workers waiting in `rc` -/
  takers : List Nat := []
  /-- `join` is awaited -/
  joined : Bool := false
  /-- `rc` is closed -/
  closed : Bool := false
  /-- a channel that has been destroyed was used -/
  ub : Bool := false

def upd {α : Type} (f : Nat → α) (i : Nat) (a : α) : Nat → α := fun j => if j = i then a else f j

/-- The outcome of the call the coroutine `i` makes. -/
def St.call (P : Prog) (s : St) (i : Nat) : Option Out := (P.calls i)[(s.res i).length]?

/-- The coroutine `i` ends; whoever waits in its `res` goes on. -/
def St.die (s : St) (i : Nat) (how : W) : St :=
  { s with w := upd s.w i how, k := fun x => if s.k x = .answering i then .idle else s.k x }

/-- A cancelled coroutine: what it waits for ends (asio: the operation leaves the queue). -/
def W.cancel : W → W
  | .sending | .receiving => .stop
  | a => a

/-- `join` cancels all coroutines but `i` that have not ended (join.hpp:76-91). -/
def St.cancelAll (s : St) (i : Nat) : St :=
  { s with
    told := fun j => s.told j || (j != i && !(s.w j).dead)
    w := fun j => if j = i then s.w j else (s.w j).cancel
    senders := s.senders.filter (· == i) }

/-- The coroutine `i` goes on with its next call (lines 59-62). A cancelled one throws at the next `co_await`. -/
def St.request (P : Prog) (s : St) (i : Nat) : St :=
  match s.call P i with
  | none => s.die i .done
  | some _ =>
    if s.told i then s.die i .aborted
    else match s.takers with
      | x :: xs => { s with takers := xs, k := upd s.k x (.busy i), w := upd s.w i .sent }
      | [] => { s with senders := s.senders ++ [i], w := upd s.w i .sending }

/-- The coroutine `i` receives (line 63). -/
def St.receive (P : Prog) (s : St) (i : Nat) : St :=
  if s.told i then s.die i .aborted
  else if (List.range P.workers).any fun x => s.k x = .answering i then
    match s.call P i with
    | some o => { s with w := upd s.w i (.got o), k := fun x => if s.k x = .answering i then .idle else s.k x }
    | none => s
  else { s with w := upd s.w i .receiving }

/-- The coroutine `i` has an answer. -/
def St.answer (P : Prog) (s : St) (i : Nat) : Out → St
  | .ok r => St.request P { s with res := upd s.res i (s.res i ++ [r]) } i
  | .fail e => if s.joined then (s.die i (.failed e)).cancelAll i else s.die i (.failed e)

/-- The resumption of the coroutine `i` is run. -/
def St.resume (P : Prog) (s : St) (i : Nat) : St :=
  match s.w i with
  | .sent => s.receive P i
  | .stop => s.die i .aborted
  | .got o => s.answer P i o
  | _ => s

/-- The worker `x` answers the coroutine `i` (line 52). -/
def St.reply (P : Prog) (s : St) (x i : Nat) : St :=
  if (s.w i).dead then { s with ub := true }
  else match s.w i, s.call P i with
    | .receiving, some o => { s with w := upd s.w i (.got o), k := upd s.k x .idle }
    | _, _ => { s with k := upd s.k x (.answering i) }

/-- The worker `x` receives (lines 33-37). -/
def St.take (s : St) (x : Nat) : St :=
  if s.closed then { s with k := upd s.k x .ended }
  else match s.senders with
    | i :: is => { s with senders := is, k := upd s.k x (.busy i), w := upd s.w i .sent }
    | [] => { s with takers := s.takers ++ [x], k := upd s.k x .waiting }

/-- The thread of worker `x` goes on. -/
def St.worker (P : Prog) (s : St) (x : Nat) : St :=
  match s.k x with
  | .idle => s.take x
  | .busy i => s.reply P x i
  | _ => s

/-- A coroutine that failed before. -/
def St.failedOne (P : Prog) (s : St) : Option Nat :=
  (List.range P.works).find? fun i => match s.w i with | .failed _ => true | _ => false

/-- `join` is awaited: if one has failed already the others are cancelled (join.hpp:201-202). -/
def St.join (P : Prog) (s : St) : St :=
  match s.failedOne P with
  | some i => { s.cancelAll i with joined := true }
  | none => { s with joined := true }

/-- `rc.close()`: who waits goes on. -/
def St.close (s : St) : St :=
  { s with closed := true, takers := [], k := fun x => if s.k x = .waiting then .idle else s.k x }

inductive Ev where
  /-- the coroutine `i` is called -/
  | start (i : Nat)
  /-- its resumption is run -/
  | resume (i : Nat)
  | join
  /-- `join` has ended -/
  | close
  /-- the thread of a worker goes on -/
  | worker (x : Nat)
deriving DecidableEq, Repr

def St.allNot (P : Prog) (s : St) : Bool := (List.range P.works).all fun i => s.w i != .new

def St.allDead (P : Prog) (s : St) : Bool := (List.range P.works).all fun i => (s.w i).dead

/-- Whether it can happen. -/
def St.can (P : Prog) (s : St) : Ev → Bool
  | .start i => decide (i < P.works) && !s.joined && s.w i == .new
  | .resume i => decide (i < P.works) && match s.w i with | .sent | .stop | .got _ => true | _ => false
  | .join => !s.joined && s.allNot P
  | .close => s.joined && !s.closed && s.allDead P
  | .worker x => decide (x < P.workers) && match s.k x with | .idle | .busy _ => true | _ => false

def St.act (P : Prog) (s : St) : Ev → St
  | .start i => s.request P i
  | .resume i => s.resume P i
  | .join => s.join P
  | .close => s.close
  | .worker x => s.worker P x

/-- After undefined behaviour nothing is said. -/
def St.step (P : Prog) (s : St) (e : Ev) : St := if !s.ub && s.can P e then s.act P e else s

def St.steps (P : Prog) (s : St) (es : List Ev) : St := es.foldl (St.step P) s

def run (P : Prog) (es : List Ev) : St := St.steps P {} es

end Cobalt.Rpc
