import Verif.Comb.Model
/-!
# Model of the forms of awaiting `join` and `race`

Sources: `detail/join.hpp:221-277, 481-535`, `detail/race.hpp:342-371, 653-690`.

`cur` is what `std::current_exception()` gives when the awaiter goes on: there is one when the
coroutine runs inside of a handler, for example because it was called there.

Simplification: a form that the compiler refuses is `illFormed`.
-/
namespace Cobalt.Comb

/-- What `as_tuple` gives: the exception and the values. `as_result` gives one of them. -/
inductive Form where
  | tuple (e : Option Nat) (l : List Out)
  | ok (r : Res)
  | failed (e : Nat)
  | undefined
  | illFormed
deriving DecidableEq, Repr

/-- The values, if there are all. -/
def St.all (c : Cfg) (s : St) : Option (List Out) :=
  if (List.range c.n).all fun i => (s.res i).isSome then some ((List.range c.n).filterMap s.res)
  else none

/-- `await_resume(as_tuple_tag)` of join. -/
def St.joinTuple (c : Cfg) (s : St) (cur : Option Nat) : Form :=
  if c.ranged then
    -- join.hpp:481-498: the vector of `void` does not exist
    if c.allVoid then .illFormed
    else match s.err with
      | some e => .tuple (some e) []
      | none => match s.all c with
        | some l => .tuple none l
        | none => .undefined
  else
    -- join.hpp:236-256
    if c.allVoid then .tuple s.err []
    else match s.err with
      | some e => .tuple (some e) []
      | none => match s.all c with
        | some l => .tuple cur l
        | none => .undefined

/-- `await_resume(as_result_tag)` of join. -/
def St.joinResult (c : Cfg) (s : St) : Form :=
  if c.ranged then
    -- join.hpp:500-517
    if c.allVoid then .illFormed
    else match s.err with
      | some e => .failed e
      | none => match s.all c with
        | some l => .ok (.values l)
        | none => .undefined
  else
    -- join.hpp:257-277: a result and a tuple of results are returned
    if c.allVoid then
      match s.err with
      | some e => .failed e
      | none => .ok (.values [])
    else .illFormed

/-- `await_resume(as_result_tag)` of race (race.hpp:361-371, 672-682). -/
def St.raceResult (c : Cfg) (s : St) : Form :=
  match s.err with
  | some e => .failed e
  | none =>
    if c.allVoid then
      match s.index with
      | some i => .ok (.winner i none)
      | none => .undefined
    else
      match s.result, s.index with
      | some (i, v), some j => .ok (.winner (if c.ranged then j else i) (some v))
      | _, _ => .undefined

end Cobalt.Comb
