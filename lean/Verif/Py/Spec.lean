import Verif.Py.Model
/-!
# What the bridge to Python should do, said of the events alone
-/
namespace Cobalt.Py

def Act.out : Act → Out
  | .yield v => .val v
  | .ret v => .val v
  | .throw e => .exc e

def Act.last : Act → Bool
  | .yield _ => false
  | _ => true

/-- What the coroutine made, in order, and for whom: an await that comes while it works for nobody and has not ended starts
it, and what it does next is for that await. -/
structure Hist where
  cur : Option Nat := none
  over : Bool := false
  made : List (Nat × Out) := []
deriving DecidableEq, Repr

def Hist.next (h : Hist) : Ev → Hist
  | .await f _ => if h.cur = none ∧ h.over = false then { h with cur := some f } else h
  | .act a =>
    match h.cur with
    | some f => { cur := none, over := a.last, made := h.made ++ [(f, a.out)] }
    | none => h
  | .taskEnds none => { h with cur := none, over := true }
  | _ => h

def hist (es : List Ev) : Hist := es.foldl Hist.next {}

/-- The awaits. -/
def awaits : List Ev → List Nat
  | [] => []
  | e :: es => e.names ++ awaits es

/-- The awaits that were cancelled. -/
def cancels : List Ev → List Nat
  | [] => []
  | .cancel f :: es => f :: cancels es
  | _ :: es => cancels es

/-- How many callbacks have run. -/
def callbacks : List Ev → Nat
  | [] => 0
  | .callback :: es => callbacks es + 1
  | _ :: es => callbacks es

/-- How the tasks ended. -/
def tasks : List Ev → List (Option Out)
  | [] => []
  | .taskEnds t :: es => t :: tasks es
  | _ :: es => tasks es

def Ev.yields : Ev → Bool
  | .act (.yield _) => true
  | _ => false

/-- The coroutine yields after the object is gone. -/
def late : List Ev → Bool
  | [] => false
  | .drop :: es => es.any Ev.yields
  | _ :: es => late es

def firstLoop : List Ev → Option Nat
  | [] => none
  | .await _ l :: _ => some l
  | _ :: es => firstLoop es

/-- The awaits that got something the coroutine made. -/
def outs : List (Nat × Got) → List (Nat × Out)
  | [] => []
  | (f, .out o) :: l => (f, o) :: outs l
  | _ :: l => outs l

end Cobalt.Py
