import Verif.Chan.Spec
/-!
# Model of a race of channel operations

Sources: `include/boost/cobalt/detail/race.hpp:86-323`, `detail/fork.hpp:87-99, 222-249`, and the
channel of `Verif/Chan/Model.lean`.

Any number of channels, each in a state of `Verif/Chan/Model.lean` and used by anybody, and one race
whose awaitables are read and write operations on these channels. All that the race does to a channel is
done by steps of that channel.

A branch of the race awaits its operation in a child coroutine. The operation is told the function
`transaction` (race.hpp:196-203) through the promise (`begin_transaction`). It is called by the *other* side of a
transfer: whoever finds the operation waiting in the queue. A branch that finds the other side waiting takes the
value in `await_suspend` without calling it, is posted, and the coroutine of the other side runs inside
`await_suspend` (impl/channel.hpp:119-142 and 241-263); `gap` says that this is the case.

Simplifications: a race of other awaitables is in `Verif/Comb`; here the operations are given as rvalues (or are
not used by anybody else); the order of the branches is any (`race` shuffles them), it is the order of `kids`. What the
awaiter of the race is given is the outcome of branch `index` (see C18).
-/
namespace Cobalt.Chan

/-- A branch of the race: an operation of a channel. -/
structure Kid where
  ch : Nat
  op : Tok
deriving DecidableEq, Repr

/-- The awaitable of a race (race.hpp:99-141) and the channels. -/
structure Race where
  ch : Nat → St
  /-- `aws`, in the order in which they are started -/
  kids : List Kid
  /-- how many branches have been started -/
  next : Nat := 0
  /-- inside the loop of `await_suspend` (race.hpp:307-314) -/
  going : Bool := false
  /-- inside `await_suspend` of the operation started last, another coroutine runs -/
  gap : Bool := false
  /-- `index`, or `none` for its initial value -/
  index : Option Nat := none
  /-- `begin_transaction` threw "Another transaction already started" (race.hpp:198) into `await_suspend`
  of the other side -/
  threw : Bool := false
  /-- ghost: some branch found the other side waiting when it was started -/
  act : Bool := false

/-- Status of an operation. -/
def St.stat (s : St) : Tok → Status
  | .r i => (s.R i).status
  | .w i => (s.W i).status

/-- The await of this operation ended with a value, or with the value written. -/
def St.succeeded (s : St) : Tok → Prop
  | .r i => ∃ w, Obs.doneR i (.value w) ∈ s.log
  | .w i => Obs.doneW i .ok ∈ s.log

/-- `interrupt_await` of an operation. -/
def Tok.int : Tok → Ev
  | .r i => .intR i
  | .w i => .intW i

/-- Its cancellation handler. -/
def Tok.cancel : Tok → Ev
  | .r i => .cancelR i
  | .w i => .cancelW i

/-- Its destruction. -/
def Tok.drop : Tok → Ev
  | .r i => .dropR i
  | .w i => .dropW i

/-- Its await by a branch of the race: with a slot (race.hpp:210-211) and a transaction. -/
def Tok.await : Tok → Ev
  | .r i => .awaitR i true true []
  | .w i => .awaitW i true true []

/-- The operation that an await finds waiting and takes from or gives to (`op` in impl/channel.hpp:122 and
244). -/
def St.finds (s : St) : Ev → Option Tok
  | .awaitR i _ _ _ =>
    if (s.R i).status = .fresh ∧ s.readReady = false ∧ (s.R i).cancelled = false then s.wq.head?.map .w else none
  | .awaitW i _ _ _ =>
    if (s.W i).status = .fresh ∧ s.writeReady = false ∧ (s.W i).cancelled = false then s.rq.head?.map .r else none
  | _ => none

/-- `awaited_from` of an operation is set. -/
def St.awaited (s : St) : Tok → Bool
  | .r i => (s.R i).waiting
  | .w i => (s.W i).waiting

/-- Replace the operations interrupted by a transaction of the other side. -/
def Ev.hitting (e : Ev) (hits : List Tok) : Ev :=
  match e with
  | .awaitR i c t _ => .awaitR i c t hits
  | .awaitW i c t _ => .awaitW i c t hits
  | e => e

namespace Race

/-- One step of channel `c`. -/
def on (s : Race) (c : Nat) (e : Ev) : Race := { s with ch := upd s.ch c ((s.ch c).step e) }

def stat (s : Race) (κ : Kid) : Status := (s.ch κ.ch).stat κ.op

/-- The branches started. -/
def started (s : Race) : List Kid := s.kids.take s.next

/-- The loops of `cancel_all` (race.hpp:135-148) for one branch: `working` is set until the branch has ended,
`cancel` as long as it is suspended. -/
def hit (s : Race) (κ : Kid) : Race :=
  if s.stat κ = .done ∨ s.stat κ = .gone then s else (s.on κ.ch κ.op.int).on κ.ch κ.op.cancel

/-- `cancel_all` (race.hpp:135-141). -/
def cancelAll (s : Race) : Race := s.started.foldl hit s

/-- The branches started that have ended in `s'` but not in `s`. -/
def ended (s s' : Race) : List Nat :=
  (List.range s'.next).filter fun k => match s'.kids[k]? with
    | some κ => s'.stat κ == .done && !(s.stat κ == .done)
    | none => false

/-- What a branch does after its operation (race.hpp:214-271): it is the winner if there is none, and calls
`cancel_all`. -/
def settle (s s' : Race) : Race :=
  match ended s s' with
  | [] => s'
  | k :: _ => cancelAll { s' with index := s'.index <|> some k }

/-- One step of channel `c`, and what it makes the race do. If it finds a branch of the race waiting, that one begins
a transaction (race.hpp:196-203): it is the winner, and the others are cancelled. -/
def chan (s : Race) (c : Nat) (e : Ev) : Race :=
  match (s.ch c).finds e with
  | none => settle s (s.on c e)
  | some t =>
    if (s.ch c).awaited t ∧ ⟨c, t⟩ ∈ s.started then
      if s.index.isSome then { s with threw := true }
      else
        let s' : Race := { s with index := some (s.kids.idxOf ⟨c, t⟩) }
        let hits := (s.started.filter fun κ => κ.ch == c).map Kid.op
        settle s (cancelAll (s'.on c (e.hitting hits)))
    else settle s (s.on c e)

/-- The next branch is started (race.hpp:285-289, 302-314); the loop ends with a branch that is done. -/
def start (s : Race) : Race :=
  match s.kids[s.next]? with
  | none => s
  | some κ =>
    let active := ((s.ch κ.ch).finds κ.op.await).isSome
    let s' : Race := { s with next := s.next + 1, gap := active, act := s.act || active }
    let s' := s'.chan κ.ch κ.op.await
    { s' with going := decide (s.next + 1 < s.kids.length) && !(s'.stat κ == .done || s'.stat κ == .gone) }

/-- `interrupt_await` of the race (race.hpp:143-148). -/
def interrupt (s : Race) : Race :=
  s.started.foldl (fun s κ => if s.stat κ = .done then s else settle s (s.on κ.ch κ.op.int)) s

/-- A cancellation of the race (race.hpp:329-335): `cancel` is set while the branch is suspended, except for the
winner. -/
def cancel (s : Race) : Race :=
  s.started.foldl (fun s κ => if s.stat κ = .susp then s.on κ.ch κ.op.cancel else s) s

/-- All branches have ended: the awaiter goes on. -/
def over (s : Race) : Prop := s.going = false ∧ 0 < s.next ∧ ∀ κ ∈ s.started, s.stat κ = .done ∨ s.stat κ = .gone

instance (s : Race) : Decidable s.over := inferInstanceAs (Decidable (_ ∧ _ ∧ _))

/-- The operations are destroyed with the race. -/
def destroy (s : Race) : Race := s.kids.foldl (fun s κ => s.on κ.ch κ.op.drop) s

end Race

/-- The operations an event is about. -/
def Ev.names : Ev → List Tok
  | .awaitR i _ _ h => .r i :: h
  | .awaitW i _ _ h => .w i :: h
  | .cancelR i | .intR i | .dropR i => [.r i]
  | .cancelW i | .intW i | .dropW i => [.w i]
  | _ => []

/-- What can happen. -/
inductive REv where
  /-- anybody uses channel `c` -/
  | env (c : Nat) (e : Ev)
  /-- the race starts its next branch -/
  | start
  | interrupt
  | cancel
  /-- the full expression with the race ends -/
  | destroy
deriving DecidableEq, Repr

/-- What is possible: others do not use the operations of the race, and do not run while it starts its branches, except
if one of them hands over to another coroutine. -/
def Race.can (s : Race) : REv → Prop
  | .env c e => (s.going = false ∨ s.gap = true) ∧ ∀ κ ∈ s.kids, κ.ch = c → κ.op ∉ e.names
  | .start => s.next = 0 ∨ s.going = true
  | .interrupt => s.going = false
  | .cancel => s.going = false
  | .destroy => s.over

instance (s : Race) : (e : REv) → Decidable (s.can e)
  | .env .. => inferInstanceAs (Decidable (_ ∧ _))
  | .start => inferInstanceAs (Decidable (_ ∨ _))
  | .interrupt => inferInstanceAs (Decidable (_ = _))
  | .cancel => inferInstanceAs (Decidable (_ = _))
  | .destroy => inferInstanceAs (Decidable (Race.over s))

def Race.step (s : Race) (e : REv) : Race :=
  if s.threw ∨ ¬s.can e then s else
  match e with
  | .env c e => s.chan c e
  | .start => s.start
  | .interrupt => s.interrupt
  | .cancel => s.cancel
  | .destroy => s.destroy

def Race.steps (s : Race) (es : List REv) : Race := es.foldl Race.step s

/-- A race about to be awaited: channels that have been used in any way, and operations not awaited so far. -/
structure Race.Fresh (s : Race) : Prop where
  ch : ∀ c, ∃ cap es, s.ch c = exec cap es
  kids : s.kids.Nodup
  fresh : ∀ κ ∈ s.kids, s.stat κ = .fresh
  next : s.next = 0
  going : s.going = false
  gap : s.gap = false
  index : s.index = none
  threw : s.threw = false
  act : s.act = false

/-- Nothing undefined happened in a channel. -/
def Race.defined (s : Race) : Prop := ∀ c, (s.ch c).ub = false

end Cobalt.Chan
