import Verif.With.Model

/-!
# What `with` is expected to do
-/
namespace Cobalt.With

/-- A complete use: how `func` and the teardown end, and whether at once. -/
structure Use where
  valued : Bool
  func : Out
  funcNow : Bool
  tear : Tear
  tearNow : Bool

/-- The configuration and the events of a complete use. -/
def Use.cfg (u : Use) : Cfg :=
  ⟨u.valued, if u.funcNow then some u.func else none, if u.tearNow then some u.tear else none⟩

def Use.events (u : Use) : List Ev :=
  [.start] ++ (if u.funcNow then [] else [.funcEnds u.func]) ++ (if u.tearNow then [] else [.tearEnds u.tear])

/-- The exception of an outcome. -/
def Out.exc : Out → Option Nat
  | .ret _ => none
  | .throw x => some x

/-- The exception of `func` if there is one, else the one of the teardown, else the
result. -/
def Use.expected (u : Use) : Ret :=
  match u.func, u.tear.out with
  | .throw x, _ => .throw x
  | .ret _, .throw y => .throw y
  | .ret v, .ret _ => if u.valued then .value v else .void

/-- C24 for one use: `func`, then the teardown with the exception of `func`, then the
result, and nothing else. -/
def Good (u : Use) : Prop :=
  (St.run u.cfg u.events).calls = [.func, .teardown u.func.exc, .resume u.expected] ∧
  (St.run u.cfg u.events).ub = false ∧ (St.run u.cfg u.events).frame = false

def C24Holds : Prop := ∀ u, Good u

/-- What the documentation says of a teardown that modifies the exception: what it leaves is thrown, else
the exception of the teardown, else there is the result, if there is one. -/
inductive Modified (u : Use) : Ret → Prop where
  | left (x : Nat) : u.tear.change u.func.exc = some x → Modified u (.throw x)
  | teardown (y : Nat) : u.tear.change u.func.exc = none → u.tear.out = .throw y → Modified u (.throw y)
  | value (v w : Nat) : u.tear.change u.func.exc = none → u.tear.out = .ret w → u.valued = true →
      u.func = .ret v → Modified u (.value v)
  | void (w : Nat) : u.tear.change u.func.exc = none → u.tear.out = .ret w → u.valued = false →
      Modified u .void

/-- The exception passed to the teardown is the one `func` ended with. -/
def Known (c : Cfg) (es : List Ev) (e : Option Nat) : Prop :=
  ∃ o : Out, o.exc = e ∧ (c.func = some o ∨ Ev.funcEnds o ∈ es)

end Cobalt.With
