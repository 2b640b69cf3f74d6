import Verif.Gen.MoveModel
import Verif.Gen.Spec
/-! What the properties of moved generators are about, read off the history of events. -/
namespace Cobalt.Gen.Move

open Prom (upd upd_apply)

inductive Holds where
  /-- no object is there -/
  | nothing
  /-- the generator of this coroutine -/
  | of (c : Nat)
  /-- an object that was moved from -/
  | moved
deriving DecidableEq, Repr

structure Sp where
  holds : Nat → Holds := fun _ => .nothing
  /-- what happened to the generator of a coroutine and in its body, without the moves -/
  hist : Nat → List Gen.Ev := fun _ => []
  /-- the object an await was made of -/
  self : Nat → Nat := fun _ => 0

namespace Sp

/-- The event happens to the generator at `r`. -/
def note (p : Sp) (r : Nat) (e : Gen.Ev) : Sp :=
  match p.holds r with
  | .of c => { p with hist := upd p.hist c (p.hist c ++ [e]) }
  | _ => p

def step (p : Sp) : Ev → Sp
  | .create c r => { p with holds := upd p.holds r (.of c) }
  | .body c e => { p with hist := upd p.hist c (p.hist c ++ [e]) }
  | .await a r v => { p.note r (.await a v) with self := upd p.self a r }
  | .get a r => { p.note r (.get a) with self := upd p.self a r }
  | .interrupt a => p.note (p.self a) (.interrupt a)
  | .moveC r r' => { p with holds := upd (upd p.holds r .moved) r' (p.holds r) }
  | .moveA r r' => { p.note r .drop with holds := upd (upd p.holds r' .moved) r (p.holds r') }
  | .drop r => { p.note r .drop with holds := upd p.holds r .nothing }

def steps (p : Sp) (es : List Ev) : Sp := es.foldl step p

end Sp

def spec (es : List Ev) : Sp := Sp.steps {} es

/-- A possible history. -/
def Legal : St → List Ev → Prop
  | _, [] => True
  | s, e :: es => s.can e = true ∧ Legal (s.step e) es

instance Legal.dec : ∀ (s : St) (es : List Ev), Decidable (Legal s es)
  | _, [] => isTrue trivial
  | s, e :: es =>
    haveI := Legal.dec (s.step e) es
    inferInstanceAs (Decidable (s.can e = true ∧ Legal (s.step e) es))

/-- No coroutine waits for the object at `r`. -/
def unawaited (s : St) (r : Nat) : Bool :=
  match s.obj r with
  | none => true
  | some o => o.g.awaited.isNone

/-- The frame of the coroutine that the object at `r` had last exists. -/
def lives (s : St) (r : Nat) : Bool :=
  match s.obj r with
  | none => true
  | some o => (s.frame o.ref).isSome

/-- Awaiting the object at `r`, which was moved from, does not give what the move left. -/
def spent (s : St) (r : Nat) : Bool :=
  match s.obj r with
  | none => true
  | some o => o.g.exc.isSome || o.g.result.isNone

/-- The uses for which moving works. Excluded:
* moving a generator while it is awaited;
* assigning to one whose last coroutine is gone;
* `get` of a generator that was moved from, and awaiting it a second time if it held a
  value when it was moved, or the first time if its coroutine had ended. -/
def Tidy (p : Sp) (s : St) : Ev → Prop
  | .await _ r _ => p.holds r = .moved → spent s r = true
  | .get _ r => p.holds r ≠ .moved
  | .moveC r _ => unawaited s r = true
  | .moveA r r' => unawaited s r' = true ∧ lives s r = true
  | _ => True

instance (p : Sp) (s : St) (e : Ev) : Decidable (Tidy p s e) := by
  cases e <;> unfold Tidy <;> infer_instance

/-- A possible history of such uses. -/
def TidyRun : Sp → St → List Ev → Prop
  | _, _, [] => True
  | p, s, e :: es => s.can e = true ∧ Tidy p s e ∧ TidyRun (p.step e) (s.step e) es

instance TidyRun.dec : ∀ (p : Sp) (s : St) (es : List Ev), Decidable (TidyRun p s es)
  | _, _, [] => isTrue trivial
  | p, s, e :: es =>
    haveI := TidyRun.dec (p.step e) (s.step e) es
    inferInstanceAs (Decidable (s.can e = true ∧ Tidy p s e ∧ TidyRun (p.step e) (s.step e) es))

end Cobalt.Gen.Move
