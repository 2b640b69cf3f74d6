import Verif.Tmo.Spec
/-! The states of the race of a round between two events, and how it goes on. -/
namespace Cobalt.Tmo
open Cobalt.Comb (Ev Out)

/-- Both are awaited. -/
structure A (cs : Comb.St) : Prop where
  stack : cs.stack = []
  ub : cs.ub = false
  phase : cs.phase = .suspended
  c0 : cs.child 0 = .waiting
  c1 : cs.child 1 = .waiting
  uses : cs.uses = 2
  s0 : cs.sig 0 = true
  s1 : cs.sig 1 = true
  w0 : cs.working 0 = true
  index : cs.index = none
  err : cs.err = none
  result : cs.result = none

/-- `i` has won, the other, `j`, is still awaited and has been told. -/
structure W (i j : Nat) (cs : Comb.St) : Prop where
  stack : cs.stack = []
  ub : cs.ub = false
  phase : cs.phase = .suspended
  ci : cs.child i = .finished
  cj : cs.child j = .waiting
  uses : cs.uses = 1
  si : cs.sig i = false
  sj : cs.sig j = false
  wi : cs.working i = false
  index : cs.index = some i
  err : cs.err = none
  result : ∃ v, cs.result = some (i, v)

theorem next2 (p : Nat → Bool) : Comb.St.next 2 0 p = if p 0 then some 0 else if p 1 then some 1 else none := by
  unfold Comb.St.next
  simp only [List.range', List.find?]
  cases p 0 <;> cases p 1 <;> rfl

theorem next21 (p : Nat → Bool) : Comb.St.next 2 1 p = if p 1 then some 1 else none := by
  unfold Comb.St.next
  simp only [List.range', List.find?]
  cases p 1 <;> rfl

theorem next22 (p : Nat → Bool) : Comb.St.next 2 2 p = none := rfl

abbrev raw (kept swap : Bool) : Comb.Cfg where
  kind := .race
  n := 2
  order := if swap then [1, 0] else [0, 1]
  intr := fun i => kept && i == 0
  void := fun i => i == 1

theorem comb_eq {c : Cfg} {k : Bool} (h : c.kept = k) (swap : Bool) : comb c swap = raw k swap := by subst h; rfl

set_option linter.unusedSimpArgs false

open Comb.St in
/-- The read is done: the wait is cancelled. -/
theorem fin0 {c : Cfg} {swap : Bool} {s : St} {cs : Comb.St} (h : A cs) :
    ∃ cs', W 0 1 cs' ∧ St.feed c false false false swap s cs (.fin 0 (.ok 0)) =
      { s.cancel c 1 with race := some (swap, cs') } := by
  obtain ⟨stack, ub, phase, c0, c1, uses, s0, s1, w0, index, err, result⟩ := h
  obtain ⟨child, uses', off, sig, working, index', err', res, result', todo, phase', stack', ub', sent, intd, resumes⟩ := cs
  dsimp only at *
  subst stack ub phase uses index err result
  cases hk : c.kept
  · simp [St.feed, St.fuel, St.drive, St.answer, comb_eq hk, step, can, complete, raceSuspended, contIntr, scanIntr, hit,
      contEmit, scanEmit, next2, next21, next22, Comb.St.done, finish, Comb.St.inTxn, St.settle, Comb.St.resume, hk, c0, c1, s0, s1, w0]
    constructor <;> simp_all
  · simp [St.feed, St.fuel, St.drive, St.answer, comb_eq hk, step, can, complete, raceSuspended, contIntr, scanIntr, hit,
      contEmit, scanEmit, next2, next21, next22, Comb.St.done, finish, Comb.St.inTxn, St.settle, Comb.St.resume, hk, c0, c1, s0, s1, w0]
    constructor <;> simp_all

open Comb.St in
/-- The timer has expired: the read is cancelled, -/
theorem fin1 {c : Cfg} (hk : c.kept = false) {swap : Bool} {s : St} {cs : Comb.St} (h : A cs) :
    ∃ cs', W 1 0 cs' ∧ St.feed c false false false swap s cs (.fin 1 (.ok 0)) =
      { s.cancel c 0 with race := some (swap, cs') } := by
  obtain ⟨stack, ub, phase, c0, c1, uses, s0, s1, w0, index, err, result⟩ := h
  obtain ⟨child, uses', off, sig, working, index', err', res, result', todo, phase', stack', ub', sent, intd, resumes⟩ := cs
  dsimp only at *
  subst stack ub phase uses index err result
  simp [St.feed, St.fuel, St.drive, St.answer, comb_eq hk, step, can, complete, raceSuspended, contIntr, scanIntr, hit,
    contEmit, scanEmit, next2, next21, next22, Comb.St.done, finish, Comb.St.inTxn, St.settle, Comb.St.resume, hk, c0, c1, s0, s1, w0]
  constructor <;> simp_all

open Comb.St in
/-- or, if it is run by a promise, interrupted. -/
theorem fin1k {c : Cfg} (hk : c.kept = true) {swap : Bool} {s : St} {cs : Comb.St} (h : A cs) :
    St.feed c false false false swap s cs (.fin 1 (.ok 0)) =
      { s with race := none, out := s.out ++ [.timeout], tm := .off } := by
  obtain ⟨stack, ub, phase, c0, c1, uses, s0, s1, w0, index, err, result⟩ := h
  obtain ⟨child, uses', off, sig, working, index', err', res, result', todo, phase', stack', ub', sent, intd, resumes⟩ := cs
  dsimp only at *
  subst stack ub phase uses index err result
  simp [St.feed, St.fuel, St.drive, St.answer, comb_eq hk, step, can, complete, raceSuspended, contIntr, scanIntr, hit,
    contEmit, scanEmit, next2, next21, next22, Comb.St.done, finish, Comb.St.inTxn, St.settle, Comb.St.resume, hk, c0, c1, s0, s1, w0]

open Comb.St in
/-- The other one ends too. -/
theorem end0 {c : Cfg} {swap : Bool} {s : St} {cs : Comb.St} (h : W 0 1 cs) (o : Out) :
    St.feed c false false false swap s cs (.fin 1 o) =
      { s with race := none, out := s.out ++ [.data s.buf], buf := [], rd := .off, tm := .off } := by
  obtain ⟨stack, ub, phase, c0, c1, uses, s0, s1, w0, index, err, v, result⟩ := h
  obtain ⟨child, uses', off, sig, working, index', err', res, result', todo, phase', stack', ub', sent, intd, resumes⟩ := cs
  dsimp only at *
  subst stack ub phase uses index err result
  cases hk : c.kept <;> cases o
  all_goals
    simp [St.feed, St.fuel, St.drive, St.answer, comb_eq hk, step, can, complete, raceSuspended, contIntr, scanIntr, hit,
      contEmit, scanEmit, next2, next21, next22, Comb.St.done, finish, Comb.St.inTxn, St.settle, Comb.St.resume, hk, c0, c1, s0, s1, w0]

open Comb.St in
theorem end1 {c : Cfg} (hk : c.kept = false) {swap : Bool} {s : St} {cs : Comb.St} (h : W 1 0 cs) (o : Out) :
    St.feed c false false false swap s cs (.fin 0 o) =
      { s with race := none, out := s.out ++ [.timeout], buf := [], rd := .off, tm := .off } := by
  obtain ⟨stack, ub, phase, c0, c1, uses, s0, s1, w0, index, err, v, result⟩ := h
  obtain ⟨child, uses', off, sig, working, index', err', res, result', todo, phase', stack', ub', sent, intd, resumes⟩ := cs
  dsimp only at *
  subst stack ub phase uses index err result
  cases o
  all_goals
    simp [St.feed, St.fuel, St.drive, St.answer, comb_eq hk, step, can, complete, raceSuspended, contIntr, scanIntr, hit,
      contEmit, scanEmit, next2, next21, next22, Comb.St.done, finish, Comb.St.inTxn, St.settle, Comb.St.resume, hk, c0, c1, s0, s1, w0]

open Comb.St in
/-- A round begins. The read is done at once. -/
theorem goRead {c : Cfg} (hk : c.kept = false) {s : St} (imm exp d : Bool) (hi : imm = true) (hn : c.need ≤ s.inp.length) :
    St.feed c imm exp d false s {} .begin =
      { s with race := none, inp := s.inp.drop c.need, out := s.out ++ [.data (s.inp.take c.need)], buf := [], rd := .off, tm := .off } := by
  cases d
  all_goals
    simp [St.feed, St.fuel, St.drive, St.answer, comb_eq hk, step, can, complete, raceSuspended, raceReady, contIntr, scanIntr, hit,
      contEmit, scanEmit, next2, next21, next22, Comb.St.done, finish, Comb.St.inTxn, St.settle, Comb.St.resume, startNext, afterStart,
      endStart, endStart2, St.cancel, hk, hi, hn]

open Comb.St in
/-- The timer has expired and is asked first. -/
theorem goExp {c : Cfg} (hk : c.kept = false) {s : St} (imm d : Bool) :
    St.feed c imm true d true s {} .begin =
      { s with race := none, out := s.out ++ [.timeout], buf := [], rd := .off, tm := .off } := by
  cases d
  all_goals
    simp [St.feed, St.fuel, St.drive, St.answer, comb_eq hk, step, can, complete, raceSuspended, raceReady, contIntr, scanIntr, hit,
      contEmit, scanEmit, next2, next21, next22, Comb.St.done, finish, Comb.St.inTxn, St.settle, Comb.St.resume, startNext, afterStart,
      endStart, endStart2, St.cancel, hk]

open Comb.St in
/-- The read has been started and the timer has expired. -/
theorem goReadExp {c : Cfg} (hk : c.kept = false) {s : St} (imm d : Bool) (hi : ¬ (imm = true ∧ c.need ≤ s.inp.length)) :
    ∃ cs, W 1 0 cs ∧ St.feed c imm true d false s {} .begin =
      { St.cancel c { s with rd := .pending } 0 with race := some (false, cs) } := by
  cases d
  all_goals
    simp [St.feed, St.fuel, St.drive, St.answer, comb_eq hk, step, can, complete, raceSuspended, raceReady, contIntr, scanIntr, hit,
      contEmit, scanEmit, next2, next21, next22, Comb.St.done, finish, Comb.St.inTxn, St.settle, Comb.St.resume, startNext, afterStart,
      endStart, endStart2, St.cancel, hk, hi]
    constructor <;> simp [Comb.upd]

open Comb.St in
/-- The wait has been started and the read is done at once. -/
theorem goExpRead {c : Cfg} (hk : c.kept = false) {s : St} (imm d : Bool) (hi : imm = true) (hn : c.need ≤ s.inp.length) :
    ∃ cs, W 0 1 cs ∧ St.feed c imm false d true s {} .begin =
      { s with race := some (true, cs), inp := s.inp.drop c.need, buf := s.inp.take c.need, rd := .off, tm := .queued, queue := s.queue ++ [.timer false] } := by
  cases d
  all_goals
    simp [St.feed, St.fuel, St.drive, St.answer, comb_eq hk, step, can, complete, raceSuspended, raceReady, contIntr, scanIntr, hit,
      contEmit, scanEmit, next2, next21, next22, Comb.St.done, finish, Comb.St.inTxn, St.settle, Comb.St.resume, startNext, afterStart,
      endStart, endStart2, St.cancel, hk, hi, hn]
    constructor <;> simp [Comb.upd]

open Comb.St in
/-- Both have been started. -/
theorem goBoth {c : Cfg} (hk : c.kept = false) {s : St} (imm d swap : Bool) (hi : ¬ (imm = true ∧ c.need ≤ s.inp.length)) :
    ∃ cs, A cs ∧ St.feed c imm false d swap s {} .begin =
      { s with race := some (swap, cs), rd := .pending, tm := .pending } := by
  cases d <;> cases swap
  all_goals
    simp [St.feed, St.fuel, St.drive, St.answer, comb_eq hk, step, can, complete, raceSuspended, raceReady, contIntr, scanIntr, hit,
      contEmit, scanEmit, next2, next21, next22, Comb.St.done, finish, Comb.St.inTxn, St.settle, Comb.St.resume, startNext, afterStart,
      endStart, endStart2, St.cancel, hk, hi]
    constructor <;> simp [Comb.upd]

open Comb.St in
/-- The same with a promise. -/
theorem keptRead {c : Cfg} (hk : c.kept = true) {s : St} (imm exp d : Bool) (hr : s.rd = .done) :
    St.feed c imm exp d false s {} .begin =
      { s with race := none, out := s.out ++ [.data s.buf], buf := [], rd := .off, tm := .off } := by
  cases d
  all_goals
    simp [St.feed, St.fuel, St.drive, St.answer, comb_eq hk, step, can, complete, raceSuspended, raceReady, contIntr, scanIntr, hit,
      contEmit, scanEmit, next2, next21, next22, Comb.St.done, finish, Comb.St.inTxn, St.settle, Comb.St.resume, startNext, afterStart,
      endStart, endStart2, St.cancel, hk, hr]

open Comb.St in
/-- The timer has expired. -/
theorem keptExp {c : Cfg} (hk : c.kept = true) {s : St} (imm d swap : Bool) (hr : swap = true ∨ s.rd ≠ .done) :
    St.feed c imm true d swap s {} .begin =
      { s with race := none, out := s.out ++ [.timeout], tm := .off } := by
  cases swap <;> cases d <;> simp at hr
  all_goals
    simp [St.feed, St.fuel, St.drive, St.answer, comb_eq hk, step, can, complete, raceSuspended, raceReady, contIntr, scanIntr, hit,
      contEmit, scanEmit, next2, next21, next22, Comb.St.done, finish, Comb.St.inTxn, St.settle, Comb.St.resume, startNext, afterStart,
      endStart, endStart2, St.cancel, hk, hr]

open Comb.St in
/-- The wait has been started, the promise is done. -/
theorem keptExpRead {c : Cfg} (hk : c.kept = true) {s : St} (imm d : Bool) (hr : s.rd = .done) :
    ∃ cs, W 0 1 cs ∧ St.feed c imm false d true s {} .begin =
      { s with race := some (true, cs), tm := .queued, queue := s.queue ++ [.timer false] } := by
  cases d
  all_goals
    simp [St.feed, St.fuel, St.drive, St.answer, comb_eq hk, step, can, complete, raceSuspended, raceReady, contIntr, scanIntr, hit,
      contEmit, scanEmit, next2, next21, next22, Comb.St.done, finish, Comb.St.inTxn, St.settle, Comb.St.resume, startNext, afterStart,
      endStart, endStart2, St.cancel, hk, hr]
    constructor <;> simp [Comb.upd]

open Comb.St in
/-- Both have been started. -/
theorem keptBoth {c : Cfg} (hk : c.kept = true) {s : St} (imm d swap : Bool) (hr : s.rd ≠ .done) :
    ∃ cs, A cs ∧ St.feed c imm false d swap s {} .begin =
      { s with race := some (swap, cs), tm := .pending } := by
  cases d <;> cases swap
  all_goals
    simp [St.feed, St.fuel, St.drive, St.answer, comb_eq hk, step, can, complete, raceSuspended, raceReady, contIntr, scanIntr, hit,
      contEmit, scanEmit, next2, next21, next22, Comb.St.done, finish, Comb.St.inTxn, St.settle, Comb.St.resume, startNext, afterStart,
      endStart, endStart2, St.cancel, hk, hr]
    constructor <;> simp [Comb.upd]

end Cobalt.Tmo
