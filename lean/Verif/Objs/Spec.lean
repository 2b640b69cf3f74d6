import Verif.Objs.Model
/-! # What one expects of a pool of objects -/
namespace Cobalt.Objs

open Chan (Status Tok Obs)

/-- Every object that was made is with exactly one coroutine, or in the channel, and there once. -/
def Own (s : St) : Prop :=
  (∀ u v o, s.ph u = .has o → s.ph v = .has o → u = v) ∧
  (∀ u o, s.ph u = .has o → ∀ w ∈ s.ch.buf, s.obj w ≠ o) ∧
  (s.ch.buf.map s.obj).Nodup ∧
  ∀ o, o < s.made ↔ (∃ u, s.ph u = .has o) ∨ ∃ w ∈ s.ch.buf, s.obj w = o

/-- With nothing scheduled, nobody waits while there is an object in the channel. -/
def Served (s : St) : Prop := s.ch.posted = [] → ∀ u j, s.ph u = .wait j → s.ch.buf = []

/-- Reads that have been woken and not been cancelled since. -/
def woken (c : Chan.St) : Nat :=
  c.posted.countP fun | .r i => !(c.R i).cancelled | .w _ => false

/-- A coroutine that takes an object without waiting leaves one for everybody that has been woken. -/
def Polite (s : St) : Ev → Prop
  | .take _ _ => s.ch.buf = [] ∨ woken s.ch < s.ch.buf.length
  | _ => True

def PoliteAll (s : St) : List Ev → Prop
  | [] => True
  | e :: es => Polite s e ∧ PoliteAll (s.step e) es

/-- A coroutine that has been woken is not cancelled any more. -/
def Spares (s : St) : Ev → Prop
  | .cancel u => ∀ j, s.ph u = .wait j → Tok.r j ∉ s.ch.posted
  | _ => True

def SparesAll (s : St) : List Ev → Prop
  | [] => True
  | e :: es => Spares s e ∧ SparesAll (s.step e) es

end Cobalt.Objs
