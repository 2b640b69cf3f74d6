import Verif.Gen.Spec
/-! The invariant behind the properties of generators. -/
namespace Cobalt.Gen

open Prom (upd upd_apply)

/-- What is delivered with one more entry in the log. -/
@[grind =] theorem delivered_cons (l : List (Nat × Got)) (a : Nat) (g : Got) :
    ((((a, g) :: l).reverse.map Prod.snd).filter ofBody) =
      ((l.reverse.map Prod.snd).filter ofBody) ++ (if ofBody g then [g] else []) := by
  cases h : ofBody g <;> simp [List.filter_append, h]

@[grind] def optVal : Option Nat → List Got
  | some v => [.val v]
  | none => []

@[grind] def optErr : Option Err → List Got
  | some e => [.err e]
  | none => []

/-- What the receiver holds. -/
@[grind] def pend (s : St) : List Got := optVal s.result ++ optVal s.buffer ++ optErr s.exc

attribute [grind =] ofBody

@[grind =] def tp : Option Aw → List Nat
  | some w => if w.toPush then [w.push] else []
  | none => []

@[grind =] def owedBy (aw : Nat → Option Aw) : Option Nat → List Nat
  | some a => tp (aw a)
  | none => []

/-- The pushed value that is still in the awaitable. -/
@[grind =] def owed (s : St) : List Nat := owedBy s.aw s.awaited

theorem owedBy_upd {aw : Nat → Option Aw} {b : Option Nat} {a : Nat} {w : Option Aw} (h : b ≠ some a) :
    owedBy (upd aw a w) b = owedBy aw b := by
  cases b with
  | none => rfl
  | some b => simp only [ne_eq, Option.some.injEq] at h; simp [owedBy, h]

/-- `q`: every use so far was plain. -/
structure Inv (q : Bool) (p : Sp) (s : St) : Prop where
  ub : s.ub = false
  dropped : p.dropped = !s.recv
  ended : s.recv = true → s.done = p.ended
  gone : s.recv = true → (s.done = true ↔ s.phase = .gone)
  stuck : s.recv = true → s.phase ≠ .stuck
  unrecv : s.recv = false → s.phase ≠ .parked ∧ s.awaited = none
  outs : s.recv = true → p.outs = (s.log.reverse.map Prod.snd).filter ofBody ++ pend s
  pre : ((s.log.reverse.map Prod.snd).filter ofBody) <+: p.outs
  excBody : ∀ e, s.exc = some e → ofBody (.err e) = true
  buf : ∀ v, s.buffer = some v → s.result ≠ none ∧ s.lazy = true ∧ s.void = true
  exc : ∀ e, s.exc = some e → s.result = none ∧ s.done = true
  doneA : s.done = true → s.awaited = none
  parkA : s.phase = .parked → s.awaited = none ∧ s.done = false
  eagerR : s.recv = true → s.lazy = false → s.phase = .running → s.result = none ∧ s.pushed = none
  eagerP : s.lazy = false → s.phase = .parked → s.result ≠ none ∧ s.pushed = none
  eagerQ : s.recv = true → s.phase = .posted → s.lazy = false ∧ s.pushed ≠ none ∧ s.result = none
  lazyR : s.recv = true → s.phase = .running → s.result ≠ none → s.lazy = true ∧ s.void = true ∧ s.pushed = none ∧ s.buffer = none
  /-- eager and done: the last push may be in, nothing is left or the result is -/
  eagerD : s.recv = true → s.lazy = false → s.phase = .gone → s.result ≠ none → s.pushed = none
  awaited : ∀ a, s.awaited = some a → a ∉ s.killed ∧ ∃ w, s.aw a = some w ∧ w.ex = none ∧ w.got = none ∧
    (w.toPush = true → s.lazy = true → s.pushed = none ∧ s.result = none) ∧ (s.lazy = false → w.toPush = true)
  waitsN : s.awaited ≠ none → s.result ≠ none → s.lazy = true ∧ s.void = true ∧ s.phase = .running
  pending : ∀ a w, s.aw a = some w → w.got = none → a ∉ s.killed → s.awaited = some a
  log : ∀ a g, (a, g) ∈ s.log ↔ ∃ w, s.aw a = some w ∧ w.got = some g
  rv : ∀ a, (a, Got.err .returnedVoid) ∈ s.log → s.done = true ∧ s.result = none ∧ s.exc = none
  once : (s.log.map Prod.fst).Nodup
  killed : ∀ a, a ∈ s.killed → ∃ w, s.aw a = some w ∧ w.got = none
  sub : (s.received.reverse ++ s.pushed.toList ++ owed s).Sublist p.pushes
  eqs : q = true → s.recv = true → p.ended = false →
    s.received.reverse ++ s.pushed.toList ++ owed s = p.pushes
  eqPre : q = true → s.received.reverse <+: p.pushes
  points : s.recv = true → p.ended = false →
    s.received.length + (if s.phase = .parked ∨ s.phase = .posted then 1 else 0) = p.points

theorem Inv.init (q v : Bool) : Inv q {} { void := v } := by
  constructor <;> simp [pend, owed, owedBy, optVal, optErr]

end Cobalt.Gen
