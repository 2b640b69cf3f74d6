import Verif.Gen.Model
/-! What the properties of generators are about, read off the history of events. -/
namespace Cobalt.Gen

/-- A possible history. -/
def Legal : St → List Ev → Prop
  | _, [] => True
  | s, e :: es => s.can e = true ∧ Legal (s.step e) es

instance Legal.dec : ∀ (s : St) (es : List Ev), Decidable (Legal s es)
  | _, [] => isTrue trivial
  | s, e :: es =>
    haveI := Legal.dec (s.step e) es
    inferInstanceAs (Decidable (s.can e = true ∧ Legal (s.step e) es))

structure Sp where
  /-- what the body gave to the generator, in order -/
  outs : List Got := []
  /-- the body has ended -/
  ended : Bool := false
  /-- the generator object is gone -/
  dropped : Bool := false
  /-- the values pushed, in order -/
  pushes : List Nat := []
  /-- how many suspension points the body has reached -/
  points : Nat := 0

namespace Sp

def out (p : Sp) (g : Got) : Sp := if p.dropped then p else { p with outs := p.outs ++ [g] }

def step (p : Sp) : Ev → Sp
  | .initial => { p with points := p.points + 1 }
  | .yield v => { p.out (.val v) with points := p.points + 1 }
  | .ret v => { p.out (.val v) with ended := true }
  | .throw e => { p.out (.err (.user e)) with ended := true }
  | .kill => { p.out (.err .unexpected) with ended := true }
  | .await _ v => { p with pushes := p.pushes ++ [v] }
  | .drop => { p with dropped := true }
  | .run | .interrupt _ | .get _ => p

def steps (p : Sp) (es : List Ev) : Sp := es.foldl step p

end Sp

def spec (es : List Ev) : Sp := Sp.steps {} es

/-- The answer of an await is one the body gave: not an error about the await itself. -/
def ofBody : Got → Bool
  | .val _ => true
  | .err (.user _) | .err .unexpected => true
  | .err _ => false

/-- What the body gave that was delivered, in order. -/
def delivered (s : St) : List Got := (s.log.reverse.map Prod.snd).filter ofBody

/-- The uses for which generators work. Excluded:
* `co_await initial` while the generator is awaited;
* `get` of an exception, of nothing, or of an eager generator whose body has not ended;
* interrupting an await that has ended; interrupting an await of a lazy generator whose
  pushed value the body has not taken;
* of a lazy generator that was interrupted: awaiting while a pushed value has not been
  taken and there is a result, or the body runs; the body ending by an exception or being
  destroyed while there is a result. -/
def Tidy (p : Sp) (s : St) : Ev → Prop
  | .initial => s.awaited = none
  | .get _ => (s.lazy = true ∨ s.done = true) ∧ s.exc = none ∧ s.result ≠ none
  | .interrupt a => s.awaited = some a ∧ (s.lazy = true → s.void = true ∨ s.pushed = none)
  | .await _ _ => s.lazy = true → s.pushed ≠ none → s.result = none ∧ (s.phase = .running → s.awaited ≠ none)
  | .throw _ | .kill => s.recv = true → s.result = none
  | _ => True

instance (p : Sp) (s : St) (e : Ev) : Decidable (Tidy p s e) := by
  cases e <;> unfold Tidy <;> infer_instance

/-- A possible history of such uses. -/
def TidyRun : Sp → St → List Ev → Prop
  | _, _, [] => True
  | p, s, e :: es => s.can e = true ∧ Tidy p s e ∧ TidyRun (p.step e) (s.step e) es

instance TidyRun.dec : ∀ (p : Sp) (s : St) (es : List Ev), Decidable (TidyRun p s es)
  | _, _, [] => isTrue trivial
  | p, s, e :: es =>
    haveI := TidyRun.dec (p.step e) (s.step e) es
    inferInstanceAs (Decidable (s.can e = true ∧ Tidy p s e ∧ TidyRun (p.step e) (s.step e) es))

/-- Every await is made when no other one is going on, none is interrupted, `get` is not
used. -/
def Plain (s : St) : Ev → Prop
  | .await _ _ => s.awaited = none
  | .interrupt _ | .get _ => False
  | _ => True

instance (s : St) (e : Ev) : Decidable (Plain s e) := by
  cases e <;> unfold Plain <;> infer_instance

def PlainRun : St → List Ev → Prop
  | _, [] => True
  | s, e :: es => Plain s e ∧ PlainRun (s.step e) es

instance PlainRun.dec : ∀ (s : St) (es : List Ev), Decidable (PlainRun s es)
  | _, [] => isTrue trivial
  | s, e :: es =>
    haveI := PlainRun.dec (s.step e) es
    inferInstanceAs (Decidable (Plain s e ∧ PlainRun (s.step e) es))

end Cobalt.Gen
