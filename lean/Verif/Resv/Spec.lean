import Verif.Resv.Model
/-! # What one expects of name resolution: in terms of what happened -/
namespace Cobalt.Resv

def Ev.awaited : Ev → Option Nat
  | .await i => some i
  | _ => none

def Ev.isStart : Ev → Bool
  | .start => true
  | _ => false

def Ev.isFinish : Ev → Bool
  | .finish => true
  | _ => false

def Ev.isResume : Ev → Bool
  | .resume => true
  | _ => false

def Ev.writes (c : Nat) : Ev → Option Nat
  | .set d x => if d = c then some x else none
  | _ => none

/-- The operations that were awaited, in order. -/
def awaits (es : List Ev) : List Nat := es.filterMap Ev.awaited
def starts (es : List Ev) : Nat := es.countP Ev.isStart
def finishes (es : List Ev) : Nat := es.countP Ev.isFinish
def resumes (es : List Ev) : Nat := es.countP Ev.isResume

/-- The text in a cell after `es`. -/
def text (v : Nat → Nat) (c : Nat) (es : List Ev) : Nat :=
  ((es.filterMap (Ev.writes c)).getLast?).getD (v c)

/-- The resolver was cancelled or destroyed. -/
def Cut (r : Option Nat) (b : List Ev) : Prop := ∃ k, r = some k ∧ (.cancel k ∈ b ∨ .drop k ∈ b)

/-- Something that the operation refers to is gone before it is awaited. -/
def Dangles (es : List Ev) : Prop :=
  ∃ p i r h v m b, es = p ++ .make i r h v :: (m ++ .await i :: b) ∧
    (.free h ∈ m ∨ .free v ∈ m ∨ ∃ k, r = some k ∧ .drop k ∈ m)

/-- The query of `i` is the one that the thread takes at this `start`: as many queries were taken
before as came before it. It is aborted if the resolver was cancelled while it was in the queue, and
otherwise asks for the texts as they were at the `co_await`. -/
def Answer (v : Nat → Nat) (es : List Ev) (i : Nat) (o : Out) : Prop :=
  ∃ a r h w b c, es = a ++ .await i :: (b ++ .start :: c) ∧ .make i r h w ∈ a ∧
    starts a + starts b = (awaits a).length ∧
    ((Cut r b ∧ o = .aborted) ∨ (¬ Cut r b ∧ o = .found (text v h a) (text v w a)))

/-- Every operation is awaited where it is made, as `co_await r.resolve(…)`. -/
def AtOnce (es : List Ev) : Prop :=
  ∀ a i b, es = a ++ .await i :: b → ∃ p r h w, a = p ++ [.make i r h w]

end Cobalt.Resv
