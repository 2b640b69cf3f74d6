import Verif.Prom.Model
/-! What the properties of promises are about, read off the history of events. -/
namespace Cobalt.Prom

/-- A possible history. -/
def Legal : St → List Ev → Prop
  | _, [] => True
  | s, e :: es => s.can e = true ∧ Legal (s.step e) es

instance Legal.dec : ∀ (s : St) (es : List Ev), Decidable (Legal s es)
  | _, [] => isTrue trivial
  | s, e :: es =>
    haveI := Legal.dec (s.step e) es
    inferInstanceAs (Decidable (s.can e = true ∧ Legal (s.step e) es))

/-- What a promise object stands for: a coroutine; a given value; nothing any more,
because it was moved from, by construction before the coroutine ended (`moved`), by
assignment before (`zombie`), or after (`husk`). -/
inductive Holds where
  | none
  | coro (c : Nat)
  | ready (v : Nat)
  | moved
  | zombie (c : Nat)
  | husk
deriving DecidableEq, Repr

/-- How a coroutine ended: by itself or destroyed. -/
inductive End where
  | out (o : Out)
  | killed
deriving DecidableEq, Repr

structure Sp where
  holds : Nat → Holds := fun _ => .none
  ended : Nat → Option End := fun _ => Option.none
  /-- what the promise stood for that was awaited -/
  target : Nat → Holds := fun _ => .none
  /-- the await was interrupted -/
  asked : Nat → Bool := fun _ => false

namespace Sp

/-- What is left behind by a move. -/
def left (p : Sp) (assign : Bool) : Holds → Holds
  | .coro c => if p.ended c = Option.none then (if assign then .zombie c else .moved) else .husk
  | _ => .husk

def step (p : Sp) : Ev → Sp
  | .create c r => { p with holds := upd p.holds r (.coro c) }
  | .noop r v => { p with holds := upd p.holds r (.ready v) }
  | .finish c o => { p with ended := upd p.ended c (some (.out o)) }
  | .kill c => { p with ended := upd p.ended c (some .killed) }
  | .await a r => { p with target := upd p.target a (p.holds r) }
  | .interrupt a => { p with asked := upd p.asked a true }
  | .moveC r r' => { p with holds := upd (upd p.holds r' (p.holds r)) r (p.left false (p.holds r)) }
  | .moveA r r' => { p with holds := upd (upd p.holds r (p.holds r')) r' (p.left true (p.holds r')) }
  | .drop r => { p with holds := upd p.holds r .none }
  | _ => p

def steps (p : Sp) (es : List Ev) : Sp := es.foldl step p

end Sp

def spec (es : List Ev) : Sp := Sp.steps {} es

/-- What an await should give if the coroutine ended with `e`; a value is given once. -/
def fits : End → Got → Prop
  | .out (.val v), g => g = .val v ∨ g = .moved
  | .out (.exc e), g => g = .err (.user e)
  | .killed, g => g = .err .unexpected

/-- What await `a` may give. -/
def Explains (p : Sp) (a : Nat) (g : Got) : Prop :=
  (g = .err .detached ∧ p.asked a = true) ∨
  match p.target a with
  | .coro c => g = .err .alreadyAwaited ∨ ∃ e, p.ended c = some e ∧ fits e g
  | .ready v => g = .val v ∨ g = .moved
  | .moved => g = .err .movedFrom
  | _ => False

/-- Nobody is awaiting the promise at `r`. -/
def St.free (s : St) (r : Nat) : Prop := ∀ R, s.recv r = some R → R.awaited = none

/-- The promise at `r` is not one that was moved from by assignment and whose coroutine
has ended. -/
def Sp.safe (p : Sp) (r : Nat) : Prop := ∀ c, p.holds r = .zombie c → p.ended c = none

/-- The uses for which promises work. Excluded: moving or destroying a promise that is
being awaited; interrupting an await that has ended while somebody else awaits;
awaiting a promise that was moved from, unless it was by construction and before the
coroutine ended; `get` without a result; using, even destroying, a promise after it was
moved from by assignment and the coroutine ended; assigning to a promise whose
coroutine has ended or that was moved from; moving from a promise that was moved from
by assignment. -/
def Tidy (p : Sp) (s : St) : Ev → Prop
  | .await _ r => p.holds r ≠ .husk ∧ ∀ c, p.holds r ≠ .zombie c
  | .get r => p.holds r ≠ .husk ∧ (∀ c, p.holds r ≠ .zombie c) ∧ ∀ c, p.holds r = .coro c → p.ended c ≠ none
  | .interrupt a => ∀ w R b, s.aw a = some w → s.recv w.self = some R → R.awaited = some b → b = a
  | .moveC r _ => s.free r ∧ ∀ c, p.holds r ≠ .zombie c
  | .moveA r r' => s.free r ∧ s.free r' ∧ (∀ c, p.holds r' ≠ .zombie c) ∧
      ((∃ c, p.holds r = .coro c ∧ p.ended c = none) ∨ ∃ v, p.holds r = .ready v)
  | .drop r => s.free r ∧ p.safe r
  | .leave r => p.safe r
  | .cancel r => p.safe r
  | _ => True

/-- A possible history of such uses. -/
def TidyRun : Sp → St → List Ev → Prop
  | _, _, [] => True
  | p, s, e :: es => s.can e = true ∧ Tidy p s e ∧ TidyRun (p.step e) (s.step e) es

end Cobalt.Prom
