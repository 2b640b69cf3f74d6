import Verif.Run.Spec
/-!
# Properties of `run`
-/
namespace Cobalt.Run

/-- Contexts are new: nothing in the environment refers to them. -/
def Env.Ok (env : Env) : Prop := ∀ e, env.exec = some e → e < env.fresh

theorem leave_fresh (b : Env) (ctx : Nat) (i : Env) : (b.leave ctx i).fresh = i.fresh := by
  unfold Env.leave Env.shutdown
  cases b.exec <;> simp only <;> split <;> rfl

theorem leave_res (b : Env) (ctx : Nat) (i : Env) : (b.leave ctx i).res = b.res := by
  unfold Env.leave; rfl

theorem leave_set (b : Env) (ctx : Nat) (i : Env) (e : Nat) (h : b.exec = some e) (hn : e ≠ ctx) :
    (b.leave ctx i).exec = some e := by
  unfold Env.leave Env.shutdown
  simp [h, hn]

theorem leave_unset (b : Env) (ctx : Nat) (i : Env) (h : b.exec = none) (hi : i.exec = some ctx) :
    (b.leave ctx i).exec = none := by
  unfold Env.leave Env.shutdown
  simp [h, hi]

/-- A task that does not set the executor leaves it; the counter only grows. -/
theorem exec_plain : ∀ (t : Task) (env : Env), t.Plain → env.Ok →
    (t.exec env).1.exec = env.exec ∧ env.fresh ≤ (t.exec env).1.fresh := by
  intro t
  induction t with
  | done e => intro env _ _; exact ⟨rfl, Nat.le_refl _⟩
  | setExec e n _ => intro env h; exact h.elim
  | setRes r n ih => intro env h ho; exact ih _ h ho
  | run inner watch next ihi ihn =>
    intro env h ho
    have hok : Env.Ok { exec := some env.fresh, res := env.fresh + 1, fresh := env.fresh + 2 } := by
      intro e he; cases he; simp
    obtain ⟨i1, i2⟩ := ihi { exec := some env.fresh, res := env.fresh + 1, fresh := env.fresh + 2 } h.1 hok
    have hl : (env.leave env.fresh (inner.exec { exec := some env.fresh, res := env.fresh + 1, fresh := env.fresh + 2 }).1).exec
        = env.exec := by
      cases he : env.exec with
      | none => exact leave_unset _ _ _ he i1
      | some e => exact leave_set _ _ _ e he (by have := ho e he; omega)
    have hf := leave_fresh env env.fresh (inner.exec { exec := some env.fresh, res := env.fresh + 1, fresh := env.fresh + 2 }).1
    have hok' : Env.Ok (env.leave env.fresh (inner.exec { exec := some env.fresh, res := env.fresh + 1, fresh := env.fresh + 2 }).1) := by
      intro e he
      rw [hl] at he
      have := ho e he
      rw [hf]; simp only at i2; omega
    simp only [Task.exec]
    split
    · exact ⟨hl, by rw [hf]; simp only at i2; omega⟩
    · have := ihn _ h.2 hok'
      refine ⟨this.1.trans hl, ?_⟩
      have h2 := this.2
      rw [hf] at h2
      simp only at i2 h2
      omega

/-- How a task ends does not depend on the environment. -/
theorem exec_end : ∀ (t : Task) (env : Env), (t.exec env).2 = t.outcome := by
  intro t
  induction t with
  | done e => intro env; rfl
  | setExec e n ih => intro env; exact ih _
  | setRes r n ih => intro env; exact ih _
  | run inner watch next ihi ihn =>
    intro env
    simp only [Task.exec, Task.outcome]
    rw [ihi]
    cases watch
    · cases inner.outcome <;> simp only [get, after]
      exact ihn _
    · cases inner.outcome <;> exact ihn _

/-- The property C49 as stated, for all tasks. -/
def C49 : Prop := ∀ (t : Task) (env : Env), env.Ok →
  SameEnv (run t env).1 env ∧ (run t env).2.shows t.outcome

/-- The result is the task's, for all tasks and environments. -/
theorem C49_result (t : Task) (env : Env) : (run t env).2.shows t.outcome := by
  have h := exec_end t { exec := some env.fresh, res := env.fresh + 1, fresh := env.fresh + 2 }
  simp only [run]
  rw [h]
  cases t.outcome <;> simp [get, Result.shows]

/-- The memory resource is what it was, for all tasks and environments. -/
theorem C49_resource (t : Task) (env : Env) : (run t env).1.res = env.res := leave_res _ _ _

/-- The statement if there was an executor before, or no task sets one itself. Missing:
tasks that set an executor in a thread that had none, see `C49_violated`. -/
theorem C49_partial (t : Task) (env : Env) (ho : env.Ok) (h : env.exec ≠ none ∨ t.Plain) :
    SameEnv (run t env).1 env ∧ (run t env).2.shows t.outcome := by
  refine ⟨⟨?_, C49_resource t env⟩, C49_result t env⟩
  simp only [run]
  cases he : env.exec with
  | some e => exact leave_set _ _ _ e he (by have := ho e he; omega)
  | none =>
    have hp : t.Plain := h.resolve_left fun h => h he
    refine leave_unset _ _ _ he (exec_plain t _ hp ?_).1
    intro e he; cases he; simp

/-- A nested run whose inner task throws; its caller goes on, changes the resource and sets no
executor. -/
example : Env.Ok ⟨none, 0, 5⟩ ∧
    (Task.run (.setRes 3 (.done (.throw 9))) true (.setRes 4 (.done (.value 1)))).Plain ∧
    run (.run (.setRes 3 (.done (.throw 9))) true (.setRes 4 (.done (.value 1)))) ⟨none, 0, 5⟩
      = (⟨none, 0, 9⟩, .value 1) :=
  ⟨(fun _ h => nomatch h), ⟨trivial, trivial⟩, rfl⟩

/-- A thread without executor runs a task that sets one: it stays set. -/
theorem C49_violated : ¬ C49 := by
  intro h
  have := (h (.setExec 1 (.done (.value 0))) ⟨none, 0, 5⟩ (fun _ h => nomatch h)).1.1
  revert this
  decide

theorem exec_fresh : ∀ (t : Task) (env : Env), env.fresh ≤ (t.exec env).1.fresh := by
  intro t
  induction t with
  | done e => intro env; exact Nat.le_refl _
  | setExec e n ih => intro env; exact ih { env with exec := some e }
  | setRes r n ih => intro env; exact ih { env with res := r }
  | run inner watch next ihi ihn =>
    intro env
    have h1 := ihi { exec := some env.fresh, res := env.fresh + 1, fresh := env.fresh + 2 }
    have hf := leave_fresh env env.fresh (inner.exec { exec := some env.fresh, res := env.fresh + 1, fresh := env.fresh + 2 }).1
    simp only [Task.exec]
    simp only at h1
    split
    · rw [hf]; omega
    · have := ihn (env.leave env.fresh (inner.exec { exec := some env.fresh, res := env.fresh + 1, fresh := env.fresh + 2 }).1)
      omega

/-- In a thread that has an executor, a task leaves the one it has set last. -/
theorem exec_last : ∀ (t : Task) (env : Env) (k e : Nat), t.Below k → k ≤ env.fresh → env.exec = some e → e < k →
    (t.exec env).1.exec = t.lastSet.or (some e) := by
  intro t
  induction t with
  | done x => intro env k e _ _ he _; exact he
  | setExec x n ih =>
    intro env k e h hk he hl
    have := ih { env with exec := some x } k x h.2 hk rfl h.1
    simp only [Task.exec, Task.lastSet, this]
    cases n.lastSet <;> rfl
  | setRes r n ih => intro env k e h hk he hl; exact ih { env with res := r } k e h hk he hl
  | run inner watch next ihi ihn =>
    intro env k e h hk he hl
    have hf := leave_fresh env env.fresh (inner.exec { exec := some env.fresh, res := env.fresh + 1, fresh := env.fresh + 2 }).1
    have h1 := exec_fresh inner { exec := some env.fresh, res := env.fresh + 1, fresh := env.fresh + 2 }
    have hs := leave_set env env.fresh (inner.exec { exec := some env.fresh, res := env.fresh + 1, fresh := env.fresh + 2 }).1
      e he (by omega)
    have hn := ihn (env.leave env.fresh (inner.exec { exec := some env.fresh, res := env.fresh + 1, fresh := env.fresh + 2 }).1)
      k e h (by simp only at h1; omega) hs hl
    have ho := exec_end inner { exec := some env.fresh, res := env.fresh + 1, fresh := env.fresh + 2 }
    simp only [Task.exec, Task.lastSet]
    rw [ho]
    cases watch
    · cases inner.outcome <;> simp only [get, after]
      · exact hn
      · exact hs
      · exact hs
    · cases inner.outcome <;> exact hn

/-- C49, exactly: executor and resource are as before iff there was an executor before or the last
executor the task has set, if any, is that of its own context. -/
theorem C49_exact (t : Task) (env : Env) (ho : env.Ok) (hb : t.Below (env.fresh + 1)) :
    SameEnv (run t env).1 env ↔
      env.exec ≠ none ∨ t.lastSet = none ∨ t.lastSet = some env.fresh := by
  cases he : env.exec with
  | some e =>
    refine ⟨fun _ => Or.inl (by simp), fun _ => (C49_partial t env ho (Or.inl (by simp [he]))).1⟩
  | none =>
    have hl := exec_last t { exec := some env.fresh, res := env.fresh + 1, fresh := env.fresh + 2 } (env.fresh + 1)
      env.fresh hb (by simp) rfl (by omega)
    have hr := C49_resource t env
    have hx : (run t env).1.exec = if t.lastSet.or (some env.fresh) = some env.fresh then none else t.lastSet.or (some env.fresh) := by
      simp only [run, Env.leave, he, Env.shutdown]
      rw [hl]
      split
      · rfl
      · exact hl
    unfold SameEnv
    rw [hx, he, hr]
    cases ht : t.lastSet with
    | none => simp
    | some x => by_cases hx' : x = env.fresh <;> simp [hx']

/-- The context of a caller is set: it stays. Its own is set after that, and after a nested run which
sets another: nothing stays. -/
example : (Task.setExec 1 (.run (.setExec 3 (.done (.value 0))) false (.done (.value 0)))).lastSet = some 1 ∧
    (run (.setExec 1 (.run (.setExec 3 (.done (.value 0))) false (.done (.value 0)))) ⟨none, 0, 5⟩).1.exec = some 1 ∧
    (run (.setExec 1 (.run (.setExec 3 (.done (.value 0))) false (.setExec 5 (.done (.value 0))))) ⟨none, 0, 5⟩).1.exec
      = none := by decide

end Cobalt.Run
