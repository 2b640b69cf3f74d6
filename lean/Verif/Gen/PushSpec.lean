import Verif.Gen.Spec
/-!
# What becomes of pushed values, for C31
-/
namespace Cobalt.Gen

/-- The awaits that were made, with the values pushed by them. -/
def awaits (es : List Ev) : List (Nat × Nat) := es.filterMap fun
  | .await a p => some (a, p)
  | _ => none

/-- The value pushed by await `a`; nothing if `a` is not an await (`get` pushes nothing). -/
def pushOf (es : List Ev) (a : Nat) : Option Nat := es.findSome? fun
  | .await b p => if b = a then some p else none
  | _ => none

/-- The values pushed by those awaits that ended with a value, in the order in which they ended. -/
def paid (es : List Ev) (s : St) : List Nat := s.log.reverse.filterMap fun
  | (a, .val _) => pushOf es a
  | _ => none

/-- The values whose awaits still hold them. -/
def keptBy (es : List Ev) (s : St) : List Nat :=
  ((awaits es).filter fun x => ((s.aw x.1).map Aw.toPush).getD false).map Prod.snd

end Cobalt.Gen
