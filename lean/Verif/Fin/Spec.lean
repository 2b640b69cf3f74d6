import Verif.Fin.Model
/-!
# How coroutines ought to end
-/
namespace Cobalt.Fin

/-- The body has ended, by this exception or by none, if it is the first event that ends it. -/
def ending : List Ev → Option (Option Nat)
  | [] => none
  | .ret :: _ => some none
  | .throws e :: _ => some (some e)
  | _ :: es => ending es

/-- Events that end the body. -/
def isEnd : Ev → Bool
  | .ret | .throws _ => true
  | _ => false

/-- The coroutine has an owner when the body ends. -/
def ownedAtEnd (k : Kind) (es : List Ev) : Bool := (run k (es.takeWhile fun e => !isEnd e)).owner

/-- What holds when a coroutine has ended: its frame was destroyed once or will be by the awaiter,
an exception went to its owner, or, if there is none, to who resumed it, and to nobody else; no
awaiter is left, and at most one was resumed. -/
structure Clean (k : Kind) (es : List Ev) : Prop where
  frame : (run k es).frame = .destroyed ∧ (run k es).destroyed = 1 ∨
    (run k es).frame = .parked ∧ (run k es).destroyed = 0
  thrown : (run k es).thrown = match ending es with
    | some (some e) => [(e, if ownedAtEnd k es then .owner else .resumer)]
    | _ => []
  awaiter : (run k es).awaiter = false
  once : (run k es).resumed ≤ 1

end Cobalt.Fin
