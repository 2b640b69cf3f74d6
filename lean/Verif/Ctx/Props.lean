import Verif.Ctx.Model
/-!
# Properties of stackful coroutines
-/
namespace Cobalt.Ctx

/-! ## Specification

A coroutine as the C++ standard has it ([dcl.fct.def.coroutine], [expr.await]). -/
namespace Std

/-- Destruction of a suspended coroutine: in the reverse order of construction. -/
def destroyFrom : Pc → List Obs
  | .start => [.promise, .freed]
  | .at_ _ => [.locals, .promise, .freed]
  | .final => [.promise, .freed]
  | .gone => []

/-- The body has ended. If control flows off the end of the coroutine it is destroyed. -/
def finish : Fin → Pc × List Obs
  | .suspend => (.final, [.locals])
  | _ => (.gone, [.locals, .promise, .freed])

/-- Execution until the coroutine suspends. An exception of an awaiter is thrown in the
coroutine, and ends this one. -/
def exec (fin : Fin) : List Aw → Pc × List Obs
  | [] => finish fin
  | .ready :: r => exec fin r
  | .refuse :: r => exec fin r
  | .suspend :: r => (.at_ r, [])
  | .throws :: _ => ((finish fin).1, .caught :: (finish fin).2)

def make (p : Prog) : Pc × List Obs :=
  if p.lazy_ then (.start, []) else exec p.fin p.awaits

def step (p : Prog) (pc : Pc) : Ev → Pc × List Obs
  | .resume =>
    match pc with
    | .start => exec p.fin p.awaits
    | .at_ r => exec p.fin r
    | _ => (pc, [])
  | .destroy => (.gone, destroyFrom pc)
  | .done =>
    match pc with
    | .gone => (pc, [])
    | .final => (pc, [.done true])
    | _ => (pc, [.done false])

def runFrom (p : Prog) (pc : Pc) : List Ev → List (List Obs)
  | [] => []
  | e :: es => (step p pc e).2 :: runFrom p (step p pc e).1 es

def run (p : Prog) (es : List Ev) : List (List Obs) :=
  (make p).2 :: runFrom p (make p).1 es

end Std

/-- **C69**, in full: a stackful coroutine behaves as a coroutine. -/
def C69 : Prop := ∀ p es, run p es = Std.run p es

/-- A coroutine which does not suspend at its end, as `detached`: its frame is used after its
stack was freed, and its promise never destroyed. -/
theorem C69_violated : ¬ C69 := by
  intro h
  have := h ⟨false, [], .never⟩ []
  simp [run, Std.run, make, Std.make, resumeFrom, fiber, Std.exec, Std.finish, runFrom,
    Std.runFrom] at this

/-- Destroying a suspended one: the promise goes before the locals of the body. -/
theorem C69_order_violated :
    run ⟨false, [.suspend], .suspend⟩ [.destroy] = [[], [.promise, .locals, .freed]] := by
  simp [run, make, resumeFrom, fiber, runFrom, step, destroyFrom]

/-- `done()` is false after the end. -/
theorem C69_done_violated : run ⟨false, [], .suspend⟩ [.done] = [[.locals], [.done false]] := by
  simp [run, make, resumeFrom, fiber, runFrom, step]

/-- An exception of `await_suspend` goes to whoever resumed the coroutine. -/
theorem C69_throw_violated : run ⟨false, [.throws], .suspend⟩ [] = [[.threw]] := by
  simp [run, make, resumeFrom, fiber, runFrom]

/-! ## When it does -/

/-- Execution of these awaits is the same: no awaiter throws before the next suspension, and
the end, if it is reached, is a suspension or the destruction by the awaiter. -/
def Same (fin : Fin) : List Aw → Prop
  | [] => fin = .suspend ∨ fin = .destroy
  | .ready :: r => Same fin r
  | .refuse :: r => Same fin r
  | .suspend :: _ => True
  | .throws :: _ => False

theorem resumeFrom_nil (fin : Fin) : resumeFrom fin [] =
    match fin with
    | .never => (.gone, [.locals, .freed, .ub])
    | .suspend => (.final, [.locals])
    | .refuse => (.gone, [.locals, .freed, .ub])
    | .destroy => (.gone, [.locals, .promise, .freed]) := by
  rw [resumeFrom]
  cases fin <;> simp [fiber, destroyFrom]

/-- `resumeFrom` without the argument for termination. -/
def land (fin : Fin) (k : List Aw → Pc × List Obs) : Switch × List Obs → Pc × List Obs
  | (.returned, o) => (.gone, o ++ [.freed, .ub])
  | (.fin, o) =>
    match fin with
    | .destroy => (.gone, o ++ destroyFrom .final)
    | .refuse => (.gone, o ++ [.freed, .ub])
    | _ => (.final, o)
  | (.await a r, o) =>
    match a with
    | .refuse => ((k r).1, o ++ (k r).2)
    | .throws => (.at_ r, o ++ [.threw])
    | _ => (.at_ r, o)

theorem resumeFrom_land (fin : Fin) (l : List Aw) :
    resumeFrom fin l = land fin (resumeFrom fin) (fiber fin l) := by
  rw [resumeFrom.eq_def]
  split
  · next o h => exact (congrArg (land fin _) h).symm
  · next o h => exact Eq.trans (by cases fin <;> rfl) (congrArg (land fin _) h).symm
  · next a r o h => exact Eq.trans (by cases a <;> rfl) (congrArg (land fin _) h).symm

theorem resumeFrom_ready (fin : Fin) (r : List Aw) :
    resumeFrom fin (.ready :: r) = resumeFrom fin r := by
  rw [resumeFrom_land, resumeFrom_land fin r]
  rfl

theorem resumeFrom_refuse (fin : Fin) (r : List Aw) :
    resumeFrom fin (.refuse :: r) = resumeFrom fin r := by
  rw [resumeFrom]
  simp [fiber]

theorem resumeFrom_suspend (fin : Fin) (r : List Aw) :
    resumeFrom fin (.suspend :: r) = (.at_ r, []) := by
  rw [resumeFrom]
  simp [fiber]

theorem resumeFrom_throws (fin : Fin) (r : List Aw) :
    resumeFrom fin (.throws :: r) = (.at_ r, [.threw]) := by
  rw [resumeFrom]
  simp [fiber]

/-- Resuming is the same exactly then. -/
theorem resume_same (fin : Fin) (l : List Aw) :
    (Same fin l → resumeFrom fin l = Std.exec fin l) ∧
    (¬ Same fin l → (resumeFrom fin l).2 ≠ (Std.exec fin l).2) := by
  induction l with
  | nil =>
    rw [resumeFrom_nil]
    cases fin <;> simp [Same, Std.exec, Std.finish]
  | cons a r ih =>
    cases a with
    | ready => rw [resumeFrom_ready]; exact ih
    | refuse => rw [resumeFrom_refuse]; exact ih
    | suspend => rw [resumeFrom_suspend]; simp [Same, Std.exec]
    | throws => rw [resumeFrom_throws]; simp [Same, Std.exec]

/-- A call on a coroutine at a point is the same. -/
def SameStep (p : Prog) (pc : Pc) : Ev → Prop
  | .resume =>
    match pc with
    | .start => Same p.fin p.awaits
    | .at_ r => Same p.fin r
    | _ => True
  | .destroy =>
    match pc with
    | .at_ _ => False
    | _ => True
  | .done => pc ≠ .final

theorem step_same (p : Prog) (pc : Pc) (e : Ev) :
    (SameStep p pc e → step p pc e = Std.step p pc e) ∧
    (¬ SameStep p pc e → (step p pc e).2 ≠ (Std.step p pc e).2) := by
  cases e with
  | resume =>
    cases pc with
    | start => exact resume_same p.fin p.awaits
    | at_ r => exact resume_same p.fin r
    | final => simp [SameStep, step, Std.step]
    | gone => simp [SameStep, step, Std.step]
  | destroy => cases pc <;> simp [SameStep, step, Std.step, destroyFrom, Std.destroyFrom]
  | done => cases pc <;> simp [SameStep, step, Std.step]

/-- Every call of a history on the coroutine as the standard has it is the same. -/
def SameRun (p : Prog) (pc : Pc) : List Ev → Prop
  | [] => True
  | e :: es => SameStep p pc e ∧ SameRun p (Std.step p pc e).1 es

theorem runFrom_same (p : Prog) (pc : Pc) (es : List Ev) :
    runFrom p pc es = Std.runFrom p pc es ↔ SameRun p pc es := by
  induction es generalizing pc with
  | nil => simp [runFrom, Std.runFrom, SameRun]
  | cons e es ih =>
    simp only [runFrom, Std.runFrom, SameRun, List.cons.injEq]
    by_cases h : SameStep p pc e
    · have := (step_same p pc e).1 h
      rw [this, ih]
      simp [h]
    · have := (step_same p pc e).2 h
      simp [h, this]

/-- A stackful coroutine behaves as a coroutine in a history exactly if it is not destroyed while
suspended in its body, is not asked `done()` at its end, no `await_suspend` throws, and at its
end it suspends or is destroyed by its awaiter. -/
theorem C69_exact (p : Prog) (es : List Ev) :
    run p es = Std.run p es ↔
      (p.lazy_ = true ∨ Same p.fin p.awaits) ∧ SameRun p (Std.make p).1 es := by
  simp only [run, Std.run, List.cons.injEq]
  have h := resume_same p.fin p.awaits
  cases hl : p.lazy_ with
  | true => simp [make, Std.make, hl, runFrom_same]
  | false =>
    simp only [make, Std.make, hl, Bool.false_eq_true, if_false, false_or]
    by_cases hs : Same p.fin p.awaits
    · rw [h.1 hs, runFrom_same]
      simp [hs]
    · simp [hs, h.2 hs]

/-- What holds, for the promises of `promise`, `task` and `generator`, whose last awaiter
suspends or destroys: coroutines whose awaiters do not throw, resumed to their end. -/
theorem C69_partial (p : Prog) (hf : p.fin = .suspend ∨ p.fin = .destroy)
    (ha : Aw.throws ∉ p.awaits) (n : Nat) :
    run p (List.replicate n .resume) = Std.run p (List.replicate n .resume) := by
  have same : ∀ l : List Aw, .throws ∉ l → Same p.fin l := by
    intro l
    induction l with
    | nil => exact fun _ => hf
    | cons a l ih =>
      intro hl
      simp only [List.mem_cons, not_or] at hl
      cases a with
      | ready => exact ih hl.2
      | refuse => exact ih hl.2
      | suspend => trivial
      | throws => exact absurd rfl hl.1
  have rest : ∀ l : List Aw, .throws ∉ l → ∀ r, (Std.exec p.fin l).1 = .at_ r → .throws ∉ r := by
    intro l
    induction l with
    | nil => intro _ r h; rcases hf with hf | hf <;> simp [Std.exec, Std.finish, hf] at h
    | cons a l ih =>
      intro hl r h
      simp only [List.mem_cons, not_or] at hl
      cases a with
      | ready => exact ih hl.2 r h
      | refuse => exact ih hl.2 r h
      | suspend => simp only [Std.exec, Pc.at_.injEq] at h; exact h ▸ hl.2
      | throws => exact absurd rfl hl.1
  have key : ∀ n pc, (∀ r, pc = .at_ r → .throws ∉ r) → SameRun p pc (List.replicate n .resume) := by
    intro n
    induction n with
    | zero => intros; trivial
    | succ n ih =>
      intro pc hpc
      refine ⟨?_, ih _ ?_⟩
      · cases pc with
        | start => exact same _ ha
        | at_ r => exact same _ (hpc r rfl)
        | final => trivial
        | gone => trivial
      · intro r hr
        cases pc with
        | start => exact rest _ ha r hr
        | at_ r' => exact rest _ (hpc r' rfl) r hr
        | final => simp [Std.step] at hr
        | gone => simp [Std.step] at hr
  refine (C69_exact p _).mpr ⟨.inr (same _ ha), key n _ ?_⟩
  intro r hr
  unfold Std.make at hr
  split at hr
  · cases hr
  · exact rest _ ha r hr

example : (⟨false, [.suspend, .ready, .refuse, .suspend], .destroy⟩ : Prog).fin = .destroy ∧
    Std.run ⟨false, [.suspend, .ready, .refuse, .suspend], .destroy⟩ (List.replicate 2 .resume) =
      [[], [], [.locals, .promise, .freed]] := by decide

example : SameRun ⟨true, [.suspend], .suspend⟩ .start [.done, .resume, .done, .resume, .destroy] := by
  simp [SameRun, SameStep, Std.step, Std.exec, Std.finish, Same]

end Cobalt.Ctx
