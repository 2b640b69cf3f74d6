import Verif.Comb.Model
/-! What the properties of the combinators are about, read off the history of
events alone. -/
namespace Cobalt.Comb

/-- A possible history. -/
def Legal (c : Cfg) : St → List Ev → Prop
  | _, [] => True
  | s, e :: es => s.can c e = true ∧ Legal c (s.step c e) es

instance Legal.dec (c : Cfg) : ∀ (s : St) (es : List Ev), Decidable (Legal c s es)
  | _, [] => isTrue trivial
  | s, e :: es =>
    haveI := Legal.dec c (s.step c e) es
    inferInstanceAs (Decidable (s.can c e = true ∧ Legal c (s.step c e) es))

/-- The children are 0, ..., n-1, each started at most once. -/
structure Cfg.Ok (c : Cfg) : Prop where
  nodup : c.order.Nodup
  mem : ∀ i, i ∈ c.order ↔ i < c.n
  left : c.kind ≠ .race → c.order = List.range c.n

/-- The awaitable that completes with this event, and how. -/
def Ev.ends : Ev → Option (Nat × Out)
  | .ready i o _ => some (i, o)
  | .thrown i e _ => some (i, .err e)
  | .fin i o => some (i, o)
  | _ => none

/-- How awaitable `i` completed, if it did. -/
def outcome (es : List Ev) (i : Nat) : Option Out :=
  (es.filterMap Ev.ends).findSome? fun p => if p.1 = i then some p.2 else none

/-- The first failure in time. -/
def firstErr (es : List Ev) : Option Nat :=
  (es.filterMap Ev.ends).findSome? fun p => match p.2 with
    | .err e => some e
    | .ok _ => none

/-- The awaitable that completed or began a transaction with this event. -/
def Ev.claims : Ev → Option Nat
  | .ready i _ _ => some i
  | .thrown i _ _ => some i
  | .fin i _ => some i
  | .txn i => some i
  | _ => none

/-- The first to do so. -/
def winner (es : List Ev) : Option Nat := (es.filterMap Ev.claims).head?

/-- A child has been started and has not finished. -/
def CS.active : CS → Bool
  | .asking | .waiting | .running => true
  | _ => false

/-- The awaiting coroutine goes on. -/
def St.over (s : St) : Prop := s.phase = .resumed ∨ s.phase = .direct

instance (s : St) : Decidable s.over := inferInstanceAs (Decidable (_ ∨ _))

def St.run (c : Cfg) (es : List Ev) : St := St.steps c {} es

/-- No awaitable is started after another has won, and none wins by throwing while
it is being started. -/
def LateFree (es : List Ev) : Prop := ∀ pre e post, es = pre ++ e :: post →
  (∀ i, e = .notReady i → winner pre = none) ∧ (∀ i x d, e = .thrown i x d → winner pre ≠ none)

/-- The code is not in the middle of cancelling children of its own accord. -/
def St.settled (s : St) : Prop := ∀ f ∈ s.stack, match f with
  | .intr _ co _ => co = .ext
  | .emit _ co _ _ => co = .ext
  | _ => True

/-- What was added at the front of a list since it had length `n`. -/
def recent {α : Type} (n : Nat) (l : List α) : List α := l.take (l.length - n)

/-- With event `e` a call of `interrupt_await` of the combinator returns, that began
when `since` interruptions had been made. -/
def IntrReturns (c : Cfg) (s : St) (e : Ev) (since : Nat) : Prop :=
  (e = .interrupt ∧ since = s.intd.length ∧ (s.step c e).stack = s.stack) ∨
  ∃ k d rest, e = .ret d ∧ s.stack = .intr k .ext since :: rest ∧ (s.step c e).stack = rest

/-- With event `e` the handler for an outside cancellation of type `ct` returns, that
began when `since` signals had been sent. -/
def EmitReturns (c : Cfg) (s : St) (e : Ev) (ct since : Nat) : Prop :=
  (e = .cancel ct ∧ since = s.sent.length ∧ (s.step c e).stack = s.stack) ∨
  ∃ k d rest, e = .ret d ∧ s.stack = .emit k .ext ct since :: rest ∧ (s.step c e).stack = rest

end Cobalt.Comb
