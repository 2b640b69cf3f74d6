import Verif.Src.Model
/-!
# What one expects of coroutines that take a cancellation source

In terms of what has happened (newest first), without handlers and slots.
-/
namespace Cobalt.Src
open Cobalt.Cst (CT Filter)

/-- The source of coroutine `c`. -/
def src (c : Nat) : List Act → Option Nat
  | [] => none
  | .took d g :: l => if d = c then some g else src c l
  | .left d :: l => if d = c then none else src c l
  | .ended d :: l => if d = c then none else src c l
  | _ :: l => src c l

/-- Signal `g` exists. -/
def exists_ (g : Nat) : List Act → Bool
  | [] => false
  | .made h :: l => if h = g then true else exists_ g l
  | .gone h :: l => if h = g then false else exists_ g l
  | _ :: l => exists_ g l

/-- Who was the last to take signal `g` as its source, or to reset its cancellation state while
it was its source. -/
def holder (g : Nat) : List Act → Option Nat
  | [] => none
  | .took d h :: l => if h = g then some d else holder g l
  | .reset d _ _ :: l => if src d l = some g then some d else holder g l
  | .gone h :: l => if h = g then none else holder g l
  | _ :: l => holder g l

/-- Coroutine `c` is the one that hears what is emitted on `g`. -/
def hears (c g : Nat) (l : List Act) : Bool := src c l = some g ∧ holder g l = some c

/-- The filters of coroutine `c`. -/
def filters (c : Nat) : List Act → Filter × Filter
  | [] => (Cst.enableTotal, Cst.enableTotal)
  | .took d _ :: l => if d = c then (Cst.enableTotal, Cst.enableTotal) else filters c l
  | .reset d i o :: l => if d = c then (i, o) else filters c l
  | _ :: l => filters c l

/-- What coroutine `c` has heard last, since it has taken its source or reset its state. -/
def heard (c : Nat) : List Act → CT
  | [] => .none_
  | .emit g ct :: l => if hears c g l then (filters c l).1 ct else heard c l
  | .took d _ :: l => if d = c then .none_ else heard c l
  | .left d :: l => if d = c then .none_ else heard c l
  | .reset d _ _ :: l => if d = c then .none_ else heard c l
  | .ended d :: l => if d = c then .none_ else heard c l
  | _ :: l => heard c l

/-- The operation that coroutine `c` waits for. -/
def waitsFor (c : Nat) : List Act → Option Nat
  | [] => none
  | .await d k :: l => if d = c then some k else waitsFor c l
  | .opEnd d :: l => if d = c then none else waitsFor c l
  | _ :: l => waitsFor c l

/-- `throw_if_cancelled` of coroutine `c`. -/
def throws (c : Nat) : List Act → Bool
  | [] => true
  | .throwIf d b :: l => if d = c then b else throws c l
  | .ended d :: l => if d = c then true else throws c l
  | _ :: l => throws c l

/-- What the operation is told when `ct` is emitted on `g`: the one that hears `g` and waits. -/
def telling (g : Nat) (ct : CT) (l : List Act) : List (Nat × CT) :=
  match holder g l with
  | none => []
  | some c =>
    if src c l = some g then
      match waitsFor c l with
      | none => []
      | some k =>
        if (filters c l).2 ((filters c l).1 ct) = .none_ then []
        else [(k, (filters c l).2 ((filters c l).1 ct))]
    else []

/-- What the operations are told, newest first. -/
def told : List Act → List (Nat × CT)
  | [] => []
  | .emit g ct :: l => telling g ct l ++ told l
  | _ :: l => told l

/-- The coroutine uses its source: it awaits something or asks whether it was cancelled. -/
def Act.use : Act → Option Nat
  | .await c _ => some c
  | .threw c => some c
  | .asked c _ => some c
  | _ => none

/-- Someone uses a source that is not, or no longer, its own: another coroutine has taken it or it
is gone; or the source is gone that a coroutine takes or resets. -/
def bad (a : Act) (l : List Act) : Bool :=
  match a with
  | .took _ g => !exists_ g l
  | .reset c _ _ => match src c l with
    | some g => !exists_ g l
    | none => false
  | a => match a.use with
    | some c => match src c l with
      | some g => holder g l ≠ some c
      | none => false
    | none => false

/-- Nobody has. -/
def Fine : List Act → Prop
  | [] => True
  | a :: l => bad a l = false ∧ Fine l

/-- Sources are not shared: a coroutine takes a source only while it exists and is no other's, and
a source is destroyed only when it is no coroutine's. -/
def Exclusive : List Act → Prop
  | [] => True
  | .took c g :: l => (exists_ g l = true ∧ ∀ d, d ≠ c → src d l ≠ some g) ∧ Exclusive l
  | .gone g :: l => (∀ d, src d l ≠ some g) ∧ Exclusive l
  | _ :: l => Exclusive l

/-- The awaits and questions of a history have given what they should. -/
def Honest : List Act → Prop
  | [] => True
  | .asked c ct :: l => ct = heard c l ∧ Honest l
  | .threw c :: l => (heard c l ≠ .none_ ∧ throws c l = true) ∧ Honest l
  | .await c _ :: l => (heard c l = .none_ ∨ throws c l = false) ∧ Honest l
  | _ :: l => Honest l

end Cobalt.Src
