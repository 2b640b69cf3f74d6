import Verif.SigSet.Model
/-! What signal sets are for: which signals came to a set, and who was told. -/
namespace Cobalt.SigSet

/-- Signal `n` is in set `k` after these events. -/
def inSet (k n : Nat) (es : List Ev) : Bool :=
  es.foldl (fun b e =>
    match e with
    | .add k' n' => b || (k' == k && n' == n)
    | .remove k' n' => b && !(k' == k && n' == n)
    | .clear k' => b && !(k' == k)
    | _ => b) false

/-- The signals that came while they were in set `k`, in this order. -/
def came (k : Nat) (es : List Ev) : List Nat :=
  (List.range es.length).flatMap fun j =>
    match (es[j]? : Option Ev) with
    | some (.signal n) => if inSet k n (es.take j) then [n] else []
    | _ => []

/-- The signals that coroutines were told by set `k`, in this order. -/
def told (k : Nat) (s : St) : List Nat :=
  s.log.filterMap fun x =>
    match x with
    | (k', .sig n) => if k' = k then some n else none
    | _ => none

/-- The wait is about to tell its coroutine of signal `n`. -/
def Wait.brings (k n : Nat) (w : Wait) : Bool := w.set == k && w.stage == .posted (.sig n) && !w.dropped

/-- How often signal `n` is kept by set `k` for a wait, or is on its way to a coroutine. -/
def kept (k n : Nat) (s : St) : Nat := s.count k n + s.waits.countP (Wait.brings k n)

/-- Every signal that came was told to one coroutine, or will be. -/
def Exact (es : List Ev) : Prop :=
  ∀ k n, (came k es).count n = (told k (St.run es)).count n + kept k n (St.run es)

/-- This was so all the time. -/
def Fair (es : List Ev) : Prop := ∀ p, p <+: es → Exact p

/-- What goes wrong: a signal comes to several waits; a race is won by something else though a signal has come;
signals that nobody has waited for are removed. -/
def Trouble (s : St) : Ev → Prop
  | .signal n => ∃ k, n ∈ s.regs k ∧ 2 ≤ s.waits.countP (Wait.queuedAt k)
  | .drop i => ∃ w n, s.waits[i]? = some w ∧ w.stage = .posted (.sig n)
  | .remove k n => s.count k n ≠ 0
  | .clear k => ∃ n, s.count k n ≠ 0
  | _ => False

/-- At most one coroutine waits for set `k` at a time. -/
def Alone (k : Nat) (es : List Ev) : Prop :=
  ∀ p q, es = p ++ .wait k :: q → ∀ w ∈ (St.run p).waits, w.set = k → w.stage = .done

/-- The same, as a check of every position. -/
def alone (k : Nat) (es : List Ev) : Bool :=
  (List.range es.length).all fun j =>
    (es[j]? : Option Ev) != some (.wait k) || (St.run (es.take j)).waits.all fun w => w.set != k || w.stage == .done

/-- What coroutines of set `k` are about to be told. -/
def way (k : Nat) (s : St) : List Nat :=
  s.waits.filterMap fun w =>
    match w.stage with
    | .posted (.sig n) => if w.set = k ∧ w.dropped = false then some n else none
    | _ => none

/-- What came to set `k` after what has been told. -/
def untold (k : Nat) (es : List Ev) : List Nat := (came k es).drop (told k (St.run es)).length

/-- Coroutines are told of signals in the order the signals came. -/
def InOrder (k : Nat) (es : List Ev) : Prop := ∀ p, p <+: es → (told k (St.run p) ++ way k (St.run p)) <+: came k p

end Cobalt.SigSet
