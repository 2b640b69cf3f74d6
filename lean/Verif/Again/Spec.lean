import Verif.Again.Model
/-! What the properties of races over the same sources are about. -/
namespace Cobalt.Again

open Comb (Cfg)

variable {S : Src}

/-- What was handed over to race `r`, newest first. -/
def handedTo (s : St S) (r : Nat) : List (Nat × S.γ) :=
  s.handed.filterMap fun x => if x.1 = r then some x.2 else none

/-- The result of a race, as the outcome of source `i`. -/
def given (i : Nat) : Comb.Out → Comb.Res
  | .ok v => .winner i (some v)
  | .err e => .thrown e

/-- `done()` of a frame that has destroyed itself said yes. -/
def Ev.marked : Ev S → Prop
  | .ask _ d | .ret d => d = true
  | _ => True

def Marked (es : List (Ev S)) : Prop := ∀ e ∈ es, e.marked

/-- `t` is `s` after something that concerns no awaiter. -/
structure Src.Stays (S : Src) (s t : S.σ) : Prop where
  log : S.log t = S.log s
  waits : S.waits t = S.waits s

/-- `t` is `s` after `g` was handed over to race `a`. -/
structure Src.Gives (S : Src) (s t : S.σ) (a : Nat) (g : S.γ) : Prop where
  log : S.log t = (a, g) :: S.log s
  waits : S.waits t = none

/-- How sources behave in states with property `I`, which they keep. -/
structure Src.Ok (S : Src) (I : S.σ → Prop) : Prop where
  act : ∀ s b, I s → S.ub s = false → S.can s b = true → S.ub (S.act s b) = false →
    I (S.act s b) ∧ (S.Stays s (S.act s b) ∨ ∃ a g, S.waits s = some a ∧ S.Gives s (S.act s b) a g)
  ask : ∀ s a p, I s → S.ub s = false → S.waits s = none → S.ub (S.ask s a p) = false →
    I (S.ask s a p) ∧ ((S.log (S.ask s a p) = S.log s ∧ S.waits (S.ask s a p) = some a) ∨
      ∃ g, S.Gives s (S.ask s a p) a g)
  intr : ∀ s a, I s → S.ub s = false → S.waits s = some a → S.ub (S.intr s a) = false →
    I (S.intr s a) ∧ ∃ g, S.cut g = true ∧ S.Gives s (S.intr s a) a g

/-- At the beginning nothing has been awaited. -/
structure Start (I : S.σ → Prop) (s : St S) : Prop where
  src : ∀ i, I (s.src i) ∧ S.ub (s.src i) = false ∧ S.waits (s.src i) = none ∧ S.log (s.src i) = []
  comb : s.comb = {}
  round : s.round = 0
  handed : s.handed = []
  gave : s.gave = []
  ub : s.ub = false

end Cobalt.Again
