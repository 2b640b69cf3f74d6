import Verif.Cst.Model
/-! # When an await has to throw -/
namespace Cobalt.Cst

/-- The event renews the state: the filters and the source in force afterwards. -/
def Ev.renews (dflt : Filter) (src : Option Nat) : Ev → Option (Filter × Filter × Option Nat)
  | .reset0 => some (dflt, dflt, src)
  | .reset1 f => some (f, f, src)
  | .reset2 i o => some (i, o, src)
  | .source s => some (dflt, dflt, s)
  | _ => none

def Ev.isReset : Ev → Bool
  | .reset0 | .reset1 _ | .reset2 .. | .source _ => true
  | _ => false

/-- The source after the events. -/
def sourceAfter (src : Option Nat) : List Ev → Option Nat
  | [] => src
  | .source s :: es => sourceAfter s es
  | _ :: es => sourceAfter src es

/-- `mid` are the events since the last reset of the state, or all, and `f`, `o` and `src`
the filters and the source in force since. -/
def Since (dflt : Filter) (s : St) (es : List Ev) (f o : Filter) (src : Option Nat) (mid : List Ev) : Prop :=
  (∀ e ∈ mid, e.isReset = false) ∧
  ((es = mid ∧ f = s.inF ∧ o = s.outF ∧ src = s.src) ∨
   ∃ pre r, es = pre ++ r :: mid ∧ r.renews dflt (sourceAfter s.src pre) = some (f, o, src))

/-- A cancellation passing the filter has arrived since. -/
def Pending (dflt : Filter) (s : St) (es : List Ev) : Prop :=
  ∃ f o x mid c, Since dflt s es f o (some x) mid ∧ .emit x c ∈ mid ∧ f c ≠ .none_

/-- Of those that arrived since, the last passes. -/
def LastPasses (dflt : Filter) (s : St) (es : List Ev) : Prop :=
  ∃ f o x a c b, Since dflt s es f o (some x) (a ++ .emit x c :: b) ∧
    (∀ c', .emit x c' ∉ b) ∧ f c ≠ .none_

/-- `throw_if_cancelled` as last set. -/
def enabled (b : Bool) : List Ev → Bool
  | [] => b
  | .throwIf b' :: es => enabled b' es
  | _ :: es => enabled b es

end Cobalt.Cst
