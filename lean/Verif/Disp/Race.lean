import Verif.Disp.Spec
/-! The states of the race of a round between two events, and how it goes on. -/
namespace Cobalt.Disp
open Cobalt.Comb (Ev Out)

/-- Both are awaited. -/
structure A (cs : Comb.St) : Prop where
  stack : cs.stack = []
  ub : cs.ub = false
  phase : cs.phase = .suspended
  c0 : cs.child 0 = .waiting
  c1 : cs.child 1 = .waiting
  uses : cs.uses = 2
  s0 : cs.sig 0 = true
  s1 : cs.sig 1 = true
  w0 : cs.working 0 = true
  w1 : cs.working 1 = true
  index : cs.index = none
  err : cs.err = none
  result : cs.result = none

/-- The generator has won with `m`, the read has been told and has not ended. -/
structure W (m : Nat) (cs : Comb.St) : Prop where
  stack : cs.stack = []
  ub : cs.ub = false
  phase : cs.phase = .suspended
  c0 : cs.child 0 = .finished
  c1 : cs.child 1 = .waiting
  uses : cs.uses = 1
  s0 : cs.sig 0 = false
  s1 : cs.sig 1 = false
  w0 : cs.working 0 = false
  w1 : cs.working 1 = true
  index : cs.index = some 0
  err : cs.err = none
  result : cs.result = some (0, m)

/-- The read has begun a transaction. -/
structure T (cs : Comb.St) : Prop where
  stack : cs.stack = []
  ub : cs.ub = false
  phase : cs.phase = .suspended
  c0 : cs.child 0 = .finished
  c1 : cs.child 1 = .waiting
  uses : cs.uses = 1
  s0 : cs.sig 0 = false
  s1 : cs.sig 1 = false
  w0 : cs.working 0 = false
  w1 : cs.working 1 = true
  index : cs.index = some 1
  err : cs.err = none
  result : cs.result = none

theorem next2 (p : Nat → Bool) : Comb.St.next 2 0 p = if p 0 then some 0 else if p 1 then some 1 else none := by
  unfold Comb.St.next
  simp only [List.range', List.find?]
  cases p 0 <;> cases p 1 <;> rfl

theorem next21 (p : Nat → Bool) : Comb.St.next 2 1 p = if p 1 then some 1 else none := by
  unfold Comb.St.next
  simp only [List.range', List.find?]
  cases p 1 <;> rfl

theorem next22 (p : Nat → Bool) : Comb.St.next 2 2 p = none := rfl

set_option linter.unusedSimpArgs false

open Comb.St in
/-- A message comes; the read is in the queue of the channel and ends. -/
theorem fin0 {swap : Bool} {s : St} {cs : Comb.St} (h : A cs) (m e : Nat)
    (hr : readOut (s.ch.step (.intR s.rd)) s.rd = some (.err e)) :
    St.feed false swap s cs (.fin 0 (.ok m)) =
      { s with race := none, ch := (s.ch.step (.intR s.rd)).step (.dropR s.rd), out := s.out ++ [.msg m] } := by
  obtain ⟨stack, ub, phase, c0, c1, uses, s0, s1, w0, w1, index, err, result⟩ := h
  obtain ⟨child, uses', off, sig, working, index', err', res, result', todo, phase', stack', ub', sent, intd, resumes⟩ := cs
  dsimp only at *
  subst stack ub phase uses index err result
  simp [St.feed, St.fuel, St.drive, St.answer, comb, step, can, complete, raceSuspended, contIntr, scanIntr, hit,
      contEmit, scanEmit, next2, next21, next22, Comb.St.done, finish, Comb.St.inTxn, St.settle, Comb.St.resume, c0, c1, s0, s1, w0, w1, hr]

open Comb.St in
/-- It does not end. -/
theorem fin0' {swap : Bool} {s : St} {cs : Comb.St} (h : A cs) (m : Nat)
    (hr : readOut (s.ch.step (.intR s.rd)) s.rd = none) :
    ∃ cs', W m cs' ∧ St.feed false swap s cs (.fin 0 (.ok m)) =
      { s with race := some (swap, cs'), ch := (s.ch.step (.intR s.rd)).step (.cancelR s.rd) } := by
  obtain ⟨stack, ub, phase, c0, c1, uses, s0, s1, w0, w1, index, err, result⟩ := h
  obtain ⟨child, uses', off, sig, working, index', err', res, result', todo, phase', stack', ub', sent, intd, resumes⟩ := cs
  dsimp only at *
  subst stack ub phase uses index err result
  simp [St.feed, St.fuel, St.drive, St.answer, comb, step, can, complete, raceSuspended, contIntr, scanIntr, hit,
      contEmit, scanEmit, next2, next21, next22, Comb.St.done, finish, Comb.St.inTxn, St.settle, Comb.St.resume, c0, c1, s0, s1, w0, w1, hr]
  constructor <;> simp_all

open Comb.St in
/-- The read ends. -/
theorem fin1 {swap : Bool} {s : St} {cs : Comb.St} (h : A cs) (w : Nat) {e : Nat}
    (hg : genOut s.gen (s.gen.interrupt s.round) = some (.err e)) :
    St.feed false swap s cs (.fin 1 (.ok w)) =
      { s with race := none, gen := s.gen.interrupt s.round, ch := s.ch.step (.dropR s.rd), out := s.out ++ [.sub w] } := by
  obtain ⟨stack, ub, phase, c0, c1, uses, s0, s1, w0, w1, index, err, result⟩ := h
  obtain ⟨child, uses', off, sig, working, index', err', res, result', todo, phase', stack', ub', sent, intd, resumes⟩ := cs
  dsimp only at *
  subst stack ub phase uses index err result
  simp [St.feed, St.fuel, St.drive, St.answer, comb, step, can, complete, raceSuspended, contIntr, scanIntr, hit,
      contEmit, scanEmit, next2, next21, next22, Comb.St.done, finish, Comb.St.inTxn, St.settle, Comb.St.resume, c0, c1, s0, s1, w0, w1, hg]

open Comb.St in
/-- The read begins a transaction: the generator is interrupted. -/
theorem txn {swap : Bool} {s : St} {cs : Comb.St} (h : A cs) {e : Nat}
    (hg : genOut s.gen (s.gen.interrupt s.round) = some (.err e)) :
    ∃ cs', T cs' ∧ St.drive false (comb swap) St.fuel s (cs.step (comb swap) (.txn 1)) =
      ({ s with gen := s.gen.interrupt s.round }, cs') := by
  obtain ⟨stack, ub, phase, c0, c1, uses, s0, s1, w0, w1, index, err, result⟩ := h
  obtain ⟨child, uses', off, sig, working, index', err', res, result', todo, phase', stack', ub', sent, intd, resumes⟩ := cs
  dsimp only at *
  subst stack ub phase uses index err result
  simp [St.feed, St.fuel, St.drive, St.answer, comb, step, can, complete, raceSuspended, contIntr, scanIntr, hit,
      contEmit, scanEmit, next2, next21, next22, Comb.St.done, finish, Comb.St.inTxn, St.settle, Comb.St.resume, c0, c1, s0, s1, w0, w1, hg]
  constructor <;> simp_all

open Comb.St in
theorem txn1 {swap : Bool} {s : St} {cs : Comb.St} (h : T cs) (w : Nat) :
    St.feed false swap s cs (.fin 1 (.ok w)) =
      { s with race := none, ch := s.ch.step (.dropR s.rd), out := s.out ++ [.sub w] } := by
  obtain ⟨stack, ub, phase, c0, c1, uses, s0, s1, w0, w1, index, err, result⟩ := h
  obtain ⟨child, uses', off, sig, working, index', err', res, result', todo, phase', stack', ub', sent, intd, resumes⟩ := cs
  dsimp only at *
  subst stack ub phase uses index err result
  simp [St.feed, St.fuel, St.drive, St.answer, comb, step, can, complete, raceSuspended, contIntr, scanIntr, hit,
      contEmit, scanEmit, next2, next21, next22, Comb.St.done, finish, Comb.St.inTxn, St.settle, Comb.St.resume, c0, c1, s0, s1, w0, w1]

open Comb.St in
/-- The read that has been told ends. -/
theorem end0 {swap : Bool} {s : St} {cs : Comb.St} {m : Nat} (h : W m cs) (o : Out) :
    St.feed false swap s cs (.fin 1 o) =
      { s with race := none, ch := s.ch.step (.dropR s.rd), out := s.out ++ [.msg m] } := by
  obtain ⟨stack, ub, phase, c0, c1, uses, s0, s1, w0, w1, index, err, result⟩ := h
  obtain ⟨child, uses', off, sig, working, index', err', res, result', todo, phase', stack', ub', sent, intd, resumes⟩ := cs
  dsimp only at *
  subst stack ub phase uses index err result
  cases o
  all_goals
    simp [St.feed, St.fuel, St.drive, St.answer, comb, step, can, complete, raceSuspended, contIntr, scanIntr, hit,
      contEmit, scanEmit, next2, next21, next22, Comb.St.done, finish, Comb.St.inTxn, St.settle, Comb.St.resume, c0, c1, s0, s1, w0, w1]

open Comb.St in
/-- A round begins. The message is there and the generator is asked first. -/
theorem goGen {s : St} (d : Bool) (m : Nat) (hg : genOut s.gen (s.gen.await s.round 0) = some (.ok m)) :
    St.feed d false s {} .begin =
      { s with race := none, gen := s.gen.await s.round 0, ch := s.ch.step (.dropR s.rd), out := s.out ++ [.msg m] } := by
  cases d
  all_goals
    simp [St.feed, St.fuel, St.drive, St.answer, comb, step, can, complete, raceSuspended, raceReady, contIntr, scanIntr, hit,
      contEmit, scanEmit, next2, next21, next22, Comb.St.done, finish, Comb.St.inTxn, St.settle, Comb.St.resume, startNext, afterStart,
      endStart, endStart2, hg]

open Comb.St in
/-- The channel has a value and is asked first. -/
theorem goRead {s : St} (d : Bool) (w : Nat) (hr : s.ch.readReady = true)
    (ho : readOut (s.ch.step (.awaitR s.rd true true [])) s.rd = some (.ok w)) :
    St.feed d true s {} .begin =
      { s with race := none, ch := (s.ch.step (.awaitR s.rd true true [])).step (.dropR s.rd), out := s.out ++ [.sub w] } := by
  cases d
  all_goals
    simp [St.feed, St.fuel, St.drive, St.answer, comb, step, can, complete, raceSuspended, raceReady, contIntr, scanIntr, hit,
      contEmit, scanEmit, next2, next21, next22, Comb.St.done, finish, Comb.St.inTxn, St.settle, Comb.St.resume, startNext, afterStart,
      endStart, endStart2, hr, ho]

open Comb.St in
/-- The read was started and waits in the queue, the message is there. -/
theorem goReadGen {s : St} (d : Bool) (m e : Nat) (hr : s.ch.readReady = false)
    (hg : genOut s.gen (s.gen.await s.round 0) = some (.ok m))
    (ho : readOut ((s.ch.step (.awaitR s.rd true true [])).step (.intR s.rd)) s.rd = some (.err e)) :
    St.feed d true s {} .begin =
      { s with race := none, gen := s.gen.await s.round 0, out := s.out ++ [.msg m]
               ch := ((s.ch.step (.awaitR s.rd true true [])).step (.intR s.rd)).step (.dropR s.rd) } := by
  cases d
  all_goals
    simp [St.feed, St.fuel, St.drive, St.answer, comb, step, can, complete, raceSuspended, raceReady, contIntr, scanIntr, hit,
      contEmit, scanEmit, next2, next21, next22, Comb.St.done, finish, Comb.St.inTxn, St.settle, Comb.St.resume, startNext, afterStart,
      endStart, endStart2, hr, hg, ho]

open Comb.St in
/-- The read was started and was handed a value, the message is there. -/
theorem goReadGen' {s : St} (d : Bool) (m : Nat) (hr : s.ch.readReady = false)
    (hg : genOut s.gen (s.gen.await s.round 0) = some (.ok m))
    (ho : readOut ((s.ch.step (.awaitR s.rd true true [])).step (.intR s.rd)) s.rd = none) :
    ∃ cs, W m cs ∧ St.feed d true s {} .begin =
      { s with race := some (true, cs), gen := s.gen.await s.round 0
               ch := ((s.ch.step (.awaitR s.rd true true [])).step (.intR s.rd)).step (.cancelR s.rd) } := by
  cases d
  all_goals
    simp [St.feed, St.fuel, St.drive, St.answer, comb, step, can, complete, raceSuspended, raceReady, contIntr, scanIntr, hit,
      contEmit, scanEmit, next2, next21, next22, Comb.St.done, finish, Comb.St.inTxn, St.settle, Comb.St.resume, startNext, afterStart,
      endStart, endStart2, hr, hg, ho]
    constructor <;> simp [Comb.upd]

open Comb.St in
/-- The generator has no message, the channel has a value. -/
theorem goGenRead {s : St} (d : Bool) (w : Nat) {e : Nat} (hr : s.ch.readReady = true)
    (hg : genOut s.gen (s.gen.await s.round 0) = none)
    (hi : genOut (s.gen.await s.round 0) ((s.gen.await s.round 0).interrupt s.round) = some (.err e))
    (ho : readOut (s.ch.step (.awaitR s.rd true true [])) s.rd = some (.ok w)) :
    St.feed d false s {} .begin =
      { s with race := none, gen := (s.gen.await s.round 0).interrupt s.round, out := s.out ++ [.sub w]
               ch := (s.ch.step (.awaitR s.rd true true [])).step (.dropR s.rd) } := by
  cases d
  all_goals
    simp [St.feed, St.fuel, St.drive, St.answer, comb, step, can, complete, raceSuspended, raceReady, contIntr, scanIntr, hit,
      contEmit, scanEmit, next2, next21, next22, Comb.St.done, finish, Comb.St.inTxn, St.settle, Comb.St.resume, startNext, afterStart,
      endStart, endStart2, hr, hg, hi, ho]

open Comb.St in
/-- Both have been started. -/
theorem goBoth {s : St} (d swap : Bool) (hr : s.ch.readReady = false)
    (hg : genOut s.gen (s.gen.await s.round 0) = none) :
    ∃ cs, A cs ∧ St.feed d swap s {} .begin =
      { s with race := some (swap, cs), gen := s.gen.await s.round 0, ch := s.ch.step (.awaitR s.rd true true []) } := by
  cases d <;> cases swap
  all_goals
    simp [St.feed, St.fuel, St.drive, St.answer, comb, step, can, complete, raceSuspended, raceReady, contIntr, scanIntr, hit,
      contEmit, scanEmit, next2, next21, next22, Comb.St.done, finish, Comb.St.inTxn, St.settle, Comb.St.resume, startNext, afterStart,
      endStart, endStart2, hr, hg]
    constructor <;> simp [Comb.upd]

end Cobalt.Disp
