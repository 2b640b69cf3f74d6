/-!
# Model of name resolution

Sources: `io/resolver.hpp:23-75` (`resolver`, `resolve_op_`, `lookup`), `src/io/resolver.cpp:16-50`
(`initiate` of both, `cancel`), `op.hpp:60-85` (an operation starts when it is awaited),
`doc/reference/io/resolver.adoc`, `test/io/lookup.cpp`.

`resolver::resolve` makes an operation out of a reference to the resolver and two `string_view`s.
Only `initiate`, that is the `co_await`, reads the texts. `lookup` is the same with a resolver of its
own, which nobody else can reach.

What asio does is trusted: `async_resolve` copies the two texts; the queries of all resolvers of a
context are served by one thread in the order in which they came (`resolver_service_base`,
`work_scheduler_`); a query has a token of its resolver that `cancel` and the destructor of the
resolver make expire; the thread looks at the token when it takes the query, and then calls
`getaddrinfo`, which cannot be stopped; `async_resolve` does not connect the cancellation slot of
its handler.

Simplifications: every operation is awaited at most once and by one coroutine, all coroutines are on
one thread. The text a `string_view` refers to is a cell with a content; moving the text elsewhere
(a longer string) is `free`. Cells and resolvers are not created again under the same number. The
answer to a query stands for the endpoints or the error that `getaddrinfo` gives for the two texts.
-/
namespace Cobalt.Resv

def upd {β : Type} (f : Nat → β) (a : Nat) (b : β) : Nat → β := fun x => if x = a then b else f x

inductive Out where
  /-- `operation_aborted` -/
  | aborted
  /-- what `getaddrinfo` gives for this host and this service -/
  | found (host serv : Nat)
deriving DecidableEq, Repr

/-- Where an operation is. -/
inductive Ph where
  | none
  /-- the object is there (resolver.hpp:39-41, 54-58, 64-67); `r` is its resolver, `none` that of a
  `lookup` -/
  | made (r : Option Nat) (host serv : Nat)
  /-- it is in the queue of the thread, with a token and copies of the texts
  (resolver.cpp:36-41, 43-48) -/
  | asked (r : Option Nat) (token : Nat) (host serv : Nat)
  /-- the thread has taken it -/
  | out (o : Out)
deriving DecidableEq, Repr

structure St where
  /-- the texts; `none` is gone -/
  cell : Nat → Option Nat
  /-- resolvers that are gone -/
  gone : Nat → Bool
  /-- the token of a resolver -/
  token : Nat → Nat
  ph : Nat → Ph
  /-- queries the thread has not taken yet -/
  queue : List Nat
  /-- the query it is at -/
  busy : Option Nat
  /-- completions in the queue of the executor -/
  posted : List Nat
  /-- what the `co_await`s gave -/
  told : List (Nat × Out)

inductive Ev where
  /-- the program writes another text into a cell -/
  | set (c x : Nat)
  /-- a text is gone -/
  | free (c : Nat)
  /-- `resolve(host, serv)` or `lookup(host, serv)` -/
  | make (i : Nat) (r : Option Nat) (host serv : Nat)
  /-- `co_await` of it -/
  | await (i : Nat)
  /-- `resolver::cancel` -/
  | cancel (r : Nat)
  /-- the destructor of the resolver -/
  | drop (r : Nat)
  /-- the cancellation signal of the coroutine that awaits `i` -/
  | signal (i : Nat)
  /-- the thread takes a query -/
  | start
  /-- the thread is done with it -/
  | finish
  /-- the executor runs a completion -/
  | resume
deriving DecidableEq, Repr

inductive Res where
  /-- not possible -/
  | stuck
  /-- undefined -/
  | ub
  | ok (s : St)

def init (v : Nat → Nat) : St :=
  { cell := fun c => some (v c), gone := fun _ => false, token := fun _ => 0, ph := fun _ => .none,
    queue := [], busy := none, posted := [], told := [] }

/-- The token of a query: `lookup`'s resolver is never cancelled while the query is pending. -/
def St.tok (s : St) : Option Nat → Nat
  | none => 0
  | some r => s.token r

/-- `resolver_` of an operation is there. -/
def St.has (s : St) : Option Nat → Bool
  | none => true
  | some r => !s.gone r

/-- What the thread does with a query whose token is `t`. -/
def St.take (s : St) (r : Option Nat) (t x y : Nat) : Out :=
  if s.tok r = t then .found x y else .aborted

/-- `initiate` (resolver.cpp:36-41, 43-48): it uses `resolver_`, `host_` and `service_`. -/
def St.initiate (s : St) (i : Nat) (r : Option Nat) (h v : Nat) : Res :=
  match s.has r, s.cell h, s.cell v with
  | true, some x, some y =>
    .ok { s with ph := upd s.ph i (.asked r (s.tok r) x y), queue := s.queue ++ [i] }
  | _, _, _ => .ub

def St.step (s : St) : Ev → Res
  | .set c x => if s.cell c = none then .stuck else .ok { s with cell := upd s.cell c (some x) }
  | .free c => if s.cell c = none then .stuck else .ok { s with cell := upd s.cell c none }
  | .make i r h v =>
    if s.ph i = .none ∧ s.has r = true ∧ s.cell h ≠ none ∧ s.cell v ≠ none then
      .ok { s with ph := upd s.ph i (.made r h v) }
    else .stuck
  | .await i =>
    match s.ph i with
    | .made r h v => s.initiate i r h v
    | _ => .stuck
  | .cancel r =>
    if s.gone r then .stuck else .ok { s with token := upd s.token r (s.token r + 1) }
  | .drop r =>
    if s.gone r then .stuck
    else .ok { s with gone := upd s.gone r true, token := upd s.token r (s.token r + 1) }
  | .signal _ => .ok s
  | .start =>
    match s.busy, s.queue with
    | none, i :: q =>
      match s.ph i with
      | .asked r t x y =>
        .ok { s with busy := some i, queue := q, ph := upd s.ph i (.out (s.take r t x y)) }
      | _ => .stuck
    | _, _ => .stuck
  | .finish =>
    match s.busy with
    | some i => .ok { s with busy := none, posted := s.posted ++ [i] }
    | none => .stuck
  | .resume =>
    match s.posted with
    | i :: q =>
      match s.ph i with
      | .out o => .ok { s with posted := q, told := s.told ++ [(i, o)] }
      | _ => .stuck
    | [] => .stuck

def Res.step : Res → Ev → Res
  | .ok s, e => s.step e
  | .ub, _ => .ub
  | .stuck, _ => .stuck

def run (v : Nat → Nat) (es : List Ev) : Res := es.foldl Res.step (.ok (init v))

end Cobalt.Resv
