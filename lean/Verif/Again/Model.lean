import Verif.Comb.Spec
/-!
# Model of races over the same awaitables, one after the other

Sources: `include/boost/cobalt/detail/race.hpp`; what is awaited are lvalues of
`generator` (detail/generator.hpp) or `promise` (detail/promise.hpp), as in
doc/design/race.adoc and doc/reference/race.adoc.

The race is the one of `Comb/Model.lean`. What it awaits is a source (`Src`): an object
with a state of its own that can be awaited again and again, that hands over something
to whoever awaits it, and that can be told to let go of the one who waits
(`interrupt_await`). `Again/Gen.lean` and `Again/Prom.lean` make sources of the models of
generators and promises.

Simplifications:
* Nobody but the races awaits the sources. The sources exist all the time; nobody
  destroys their coroutines.
* `interrupt_await` of a source resumes the coroutine that waits for it before it returns
  (detail/generator.hpp:320-328, detail/promise.hpp:252-259), and this is a coroutine of
  the race; so nothing else happens during this call. If nobody waits for the source, the
  call changes nothing but the awaitable, which is not used again; it is left out.
* Nor does anything else happen while a source is asked whether it is ready
  (detail/generator.hpp:200-204, detail/promise.hpp:187).
* The coroutine that awaits the race goes on once all code of the race has returned.
* Otherwise as in `Comb/Model.lean`: in particular `d` is what `done()` gives for a frame
  that has destroyed itself (race.hpp:318-319, fork.hpp:139-148).
-/
namespace Cobalt.Again

open Comb (Cfg)

/-- Something that can be awaited by one race after the other. -/
structure Src where
  /-- its state -/
  σ : Type
  /-- what its coroutine does -/
  β : Type
  /-- what it hands over -/
  γ : Type
  can : σ → β → Bool
  act : σ → β → σ
  /-- it is awaited by the race with this number; a generator is pushed the second number -/
  ask : σ → Nat → Nat → σ
  /-- `interrupt_await` -/
  intr : σ → Nat → σ
  ub : σ → Bool
  /-- which race waits for it -/
  waits : σ → Option Nat
  /-- what it handed over to which race, newest first -/
  log : σ → List (Nat × γ)
  /-- the outcome for the race -/
  out : γ → Comb.Out
  /-- it is nothing but the answer to an interruption -/
  cut : γ → Bool

/-- What a source has handed over when it has gone from `s` to `t`. -/
def Src.gave (S : Src) (s t : S.σ) : Option S.γ :=
  if (S.log s).length < (S.log t).length then (S.log t).head?.map Prod.snd else none

structure St (S : Src) where
  src : Nat → S.σ
  /-- the present race -/
  comb : Comb.St := {}
  /-- its number -/
  round : Nat := 0
  /-- what was handed over to which race by which source, newest first -/
  handed : List (Nat × Nat × S.γ) := []
  /-- what each race that has ended gave, newest first -/
  gave : List (Nat × Comb.Res) := []
  ub : Bool := false

inductive Ev (S : Src) where
  /-- the next race is awaited -/
  | begin
  /-- it asks the source it has come to -/
  | ask (p : Nat) (d : Bool)
  /-- the coroutine of source `i` does something -/
  | act (i : Nat) (b : S.β)
  /-- the source whose `interrupt_await` is called does as it is told -/
  | intr
  /-- the innermost call returns -/
  | ret (d : Bool)
  /-- the coroutine that awaits the race is sent a cancellation -/
  | cancel (ct : Nat)
  /-- `interrupt_await` of the race is called -/
  | interrupt
  /-- the coroutine that awaits the race goes on -/
  | next

namespace St

variable {S : Src}

/-- The source that is asked or interrupted. -/
def asked (s : St S) : Option Nat :=
  match s.comb.stack with
  | .asking i :: _ => some i
  | _ => none

def told (s : St S) : Option Nat :=
  match s.comb.stack with
  | .intr i _ _ :: _ => some i
  | _ => none

/-- Code other than that of the race can run. -/
def free (s : St S) : Bool := s.asked.isNone && s.told.isNone

/-- Which moves are possible. -/
def can (c : Cfg) (s : St S) : Ev S → Bool
  | .begin => s.comb.can c .begin
  | .ask _ _ => s.asked.isSome
  | .act i b => decide (i < c.n) && S.can (s.src i) b && s.free
  | .intr => match s.told with
    | some i => s.comb.child i == .waiting
    | none => false
  | .ret d => s.comb.can c (.ret d) && (match s.told with
    | some i => s.comb.child i != .waiting
    | none => true)
  | .cancel ct => s.comb.can c (.cancel ct) && s.free
  | .interrupt => s.comb.can c .interrupt && s.free
  | .next => decide s.comb.over && s.comb.stack.isEmpty

/-- Source `i` goes to `t`. If it hands over something, the coroutine of the race that
waits for it goes on: `e`. Else `other`. -/
def move (c : Cfg) (s : St S) (i : Nat) (t : S.σ) (e : Comb.Out → Comb.Ev) (other : Comb.St) : St S :=
  match S.gave (s.src i) t with
  | some g => { s with
      src := Comb.upd s.src i t, comb := s.comb.step c (e (S.out g))
      handed := (s.round, i, g) :: s.handed, ub := S.ub t }
  | none => { s with src := Comb.upd s.src i t, comb := other, ub := S.ub t }

/-- One move. Nothing changes after undefined behaviour. -/
def step (c : Cfg) (s : St S) (e : Ev S) : St S :=
  if s.ub || s.comb.ub || !s.can c e then s else
  match e with
  | .begin => { s with comb := s.comb.step c .begin }
  -- race.hpp:207-273
  | .ask p d =>
    match s.asked with
    | some i => s.move c i (S.ask (s.src i) s.round p) (.ready i · d) (s.comb.step c (.notReady i))
    | none => s
  | .act i b => s.move c i (S.act (s.src i) b) (.fin i) s.comb
  -- race.hpp:143-148
  | .intr =>
    match s.told with
    | some i => s.move c i (S.intr (s.src i) s.round) (.fin i) s.comb
    | none => s
  | .ret d => { s with comb := s.comb.step c (.ret d) }
  | .cancel ct => { s with comb := s.comb.step c (.cancel ct) }
  | .interrupt => { s with comb := s.comb.step c .interrupt }
  | .next => { s with comb := {}, round := s.round + 1, gave := (s.round, s.comb.resume c) :: s.gave }

def steps (c : Cfg) (s : St S) (es : List (Ev S)) : St S := es.foldl (step c) s

end St

/-- A possible history. -/
def Legal {S : Src} (c : Cfg) : St S → List (Ev S) → Prop
  | _, [] => True
  | s, e :: es => s.can c e = true ∧ Legal c (s.step c e) es

instance Legal.dec {S : Src} (c : Cfg) : ∀ (s : St S) (es : List (Ev S)), Decidable (Legal c s es)
  | _, [] => isTrue trivial
  | s, e :: es =>
    haveI := Legal.dec c (s.step c e) es
    inferInstanceAs (Decidable (s.can c e = true ∧ Legal c (s.step c e) es))

/-- A race of sources: all have `interrupt_await` and values. -/
structure Proper (c : Cfg) : Prop where
  ok : c.Ok
  race : c.kind = .race
  intr : ∀ i, c.intr i = true
  void : ∀ i, c.void i = false
  allVoid : c.allVoid = false

end Cobalt.Again
