import Verif.Task.Model
import Verif.Prom.Spec
/-! What the properties of tasks are about, read off the history of events. -/
namespace Cobalt.Task

open Prom (Err Out Got End fits upd upd_apply)

/-- A possible history. -/
def Legal : St → List Ev → Prop
  | _, [] => True
  | s, e :: es => s.can e = true ∧ Legal (s.step e) es

instance Legal.dec : ∀ (s : St) (es : List Ev), Decidable (Legal s es)
  | _, [] => isTrue trivial
  | s, e :: es =>
    haveI := Legal.dec (s.step e) es
    inferInstanceAs (Decidable (s.can e = true ∧ Legal (s.step e) es))

/-- What a task object stands for: a coroutine; a given value; nothing any more, because
it was moved from before the coroutine ended (`moved`) or after (`husk`). -/
inductive Holds where
  | none
  | coro (c : Nat)
  | ready (v : Nat)
  | moved
  | husk
deriving DecidableEq, Repr

structure Sp where
  holds : Nat → Holds := fun _ => .none
  ended : Nat → Option End := fun _ => Option.none
  /-- the body was awaited, or begun by the executor after a spawn -/
  begun : Nat → Bool := fun _ => false
  /-- what the task stood for that was awaited or spawned -/
  target : Nat → Holds := fun _ => .none
  /-- the await was interrupted -/
  asked : Nat → Bool := fun _ => false

namespace Sp

/-- What is left behind by a move. -/
def left (p : Sp) : Holds → Holds
  | .coro c => if p.ended c = Option.none then .moved else .husk
  | _ => .husk

/-- The coroutine a task object stands for, if it has not ended. -/
def going (p : Sp) : Holds → Option Nat
  | .coro c => if p.ended c = Option.none then some c else Option.none
  | _ => Option.none

def step (p : Sp) : Ev → Sp
  | .create c r => { p with holds := upd p.holds r (.coro c) }
  | .noop r v => { p with holds := upd p.holds r (.ready v) }
  | .finish c o => { p with ended := upd p.ended c (some (.out o)) }
  | .kill c => { p with ended := upd p.ended c (some .killed) }
  | .await a r => { p with
      target := upd p.target a (p.holds r)
      begun := match p.going (p.holds r) with | some c => upd p.begun c true | Option.none => p.begun }
  | .interrupt a => { p with asked := upd p.asked a true }
  | .moveC r r' => { p with holds := upd (upd p.holds r' (p.holds r)) r (p.left (p.holds r)) }
  -- a task that was never started is destroyed with its handle
  | .drop r => { p with
      holds := upd p.holds r .none
      ended := match p.going (p.holds r) with
        | some c => if p.begun c then p.ended else upd p.ended c (some .killed)
        | Option.none => p.ended }
  | .spawn a r r' => { p with
      target := upd p.target a (p.holds r)
      holds := match p.going (p.holds r) with
        | some _ => upd (upd p.holds r' (p.holds r)) r .moved
        | Option.none => upd p.holds r .husk }
  | .begin c => { p with begun := upd p.begun c true }
  | .deliver _ => p
  | .cancel _ => p

def steps (p : Sp) (es : List Ev) : Sp := es.foldl step p

end Sp

def spec (es : List Ev) : Sp := Sp.steps {} es

/-- What await or spawn `a` may give. -/
def Explains (p : Sp) (a : Nat) (g : Got) : Prop :=
  (g = .err .detached ∧ p.asked a = true) ∨
  match p.target a with
  | .coro c => ∃ e, p.ended c = some e ∧ fits e g
  | .ready v => g = .val v ∨ g = .moved
  | .moved => g = .err .movedFrom
  | _ => False

/-- Nobody is awaiting the task at `r`. -/
def St.free (s : St) (r : Nat) : Prop := ∀ R, s.recv r = some R → R.awaited = none

/-- The uses for which tasks work. Excluded: awaiting or spawning a task whose body was
started and has not ended; awaiting or spawning one that was moved from after it ended;
interrupting an await that has ended; moving or destroying a task that is being
awaited. -/
def Tidy (p : Sp) (s : St) : Ev → Prop
  | .await _ r | .spawn _ r _ => p.holds r ≠ .husk ∧
      ∀ c, p.holds r = .coro c → p.begun c = true → p.ended c ≠ none
  | .interrupt a => ∀ w R, s.aw a = some w → s.recv w.self = some R → R.awaited = some a
  | .moveC r _ | .drop r => s.free r
  | _ => True

/-- A possible history of such uses. -/
def TidyRun : Sp → St → List Ev → Prop
  | _, _, [] => True
  | p, s, e :: es => s.can e = true ∧ Tidy p s e ∧ TidyRun (p.step e) (s.step e) es

end Cobalt.Task
