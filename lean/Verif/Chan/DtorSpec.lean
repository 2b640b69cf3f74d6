import Verif.Chan.DtorModel
/-!
# What the destructor of a channel is meant to do
-/
namespace Cobalt.Chan

/-- The destructor returns. -/
def D.Drains (d : D) (place : Tok → Place) : Prop := ∃ n, (d.turns place n).q = []

/-- The children of a combinator that wait are among those that have not ended. -/
def D.Consistent (d : D) (place : Tok → Place) : Prop :=
  ∀ g, (d.q.filter fun t => d.waiting t && (place t).group = some g).length ≤ d.live g

/-- An operation that lives in a combinator is waited for by the last child of it, not counting
children destroyed before. -/
def D.Last (d : D) (place : Tok → Place) : Prop :=
  ∀ a t b g, d.q = a ++ t :: b → place t = .ref g →
    d.live g = 1 + (a.filter fun u => place u = .fork g).length

/-- All operations are waited for. -/
def D.Waited (d : D) : Prop := ∀ t ∈ d.q, d.waiting t = true

/-- A coroutine is suspended on this operation, and its resumption is not posted. -/
def St.waits (s : St) : Tok → Prop
  | .r i => (s.R i).status = .susp ∧ .r i ∉ s.posted
  | .w i => (s.W i).status = .susp ∧ .w i ∉ s.posted

/-- What destroying a channel is to do: the destructor returns, and has destroyed every coroutine
that waits once, and no other one; coroutines that are resumed later do not use the channel. -/
structure Destroyed (s : St) (place : Tok → Place) (live : Nat → Nat) : Prop where
  returns : ∃ n, ((s.dtor live).turns place n).q = [] ∧
    ((s.dtor live).turns place n).killed.Nodup ∧
    ∀ t, t ∈ ((s.dtor live).turns place n).killed ↔ s.waits t
  unused : ∀ t ∈ s.posted, s.usesChannel t = false

end Cobalt.Chan
