import Verif.Task.InvStep
import Verif.Task.TidyDec
/-! Properties C29 and C48: tasks and `spawn`. -/
namespace Cobalt.Task

open Prom (Err Out Got End fits upd upd_apply)

/-! ## C29 -/

/-- **C29** in full: in every possible history nothing undefined happens, no body is
started twice, every await gave what it should, once, and an await that has not ended
stands for a coroutine that has not ended. -/
def C29 : Prop := ∀ es, Legal {} es →
  (St.run es).ub = false ∧
  (∀ c, (St.run es).starts c ≤ 1) ∧
  (∀ a g, (a, g) ∈ (St.run es).log → Explains (spec es) a g) ∧
  ((St.run es).log.map Prod.fst).Nodup ∧
  ∀ a w, (St.run es).aw a = some w → w.spawned = false → w.got = none → a ∉ (St.run es).killed →
    ∃ c, (spec es).target a = .coro c ∧ (spec es).ended c = none

/-- **C29** for the uses listed at `Tidy`: any number of tasks, any order of creating,
awaiting, interrupting, finishing, destroying, moving and spawning. A body was started
exactly if it was awaited or the executor began it after a spawn. -/
theorem C29_once_partial (es : List Ev) (ht : TidyRun {} {} es) :
    (St.run es).ub = false ∧
    (∀ c, (St.run es).starts c = if (spec es).begun c then 1 else 0) ∧
    (∀ a g, (a, g) ∈ (St.run es).log → Explains (spec es) a g) ∧
    ((St.run es).log.map Prod.fst).Nodup ∧
    ∀ a w, (St.run es).aw a = some w → w.spawned = false → w.got = none → a ∉ (St.run es).killed →
      ∃ c, (spec es).target a = .coro c ∧ (spec es).ended c = none := by
  have h := Inv.run ht
  refine ⟨h.ub, h.starts, ?_, h.once, ?_⟩
  · intro a g hg
    obtain ⟨w, h1, h2⟩ := (h.log a g).1 hg
    exact h.got a w g h1 h2
  · intro a w h1 h2 h3 h4
    have hp : w.posted = false := by
      cases hp : w.posted with
      | false => rfl
      | true => have := (h.posted a w h1 h3 hp).1; rw [h2] at this; simp at this
    obtain ⟨-, R, h5, h6, -⟩ := h.pend a w h1 h3 h4 hp
    obtain ⟨c, h7, h8⟩ := h.awaitedGoing h5 h6
    exact ⟨c, h.tgt _ R a c h5 h6 h7, h8⟩

/-- **C29**: nothing starts a body but an await of its task, or the executor if it was
spawned. Of any state and any event. -/
theorem C29_lazy {s : St} {e : Ev} {c : Nat} (h : (s.step e).starts c ≠ s.starts c) :
    (∃ a r R, e = .await a r ∧ s.recv r = some R ∧ R.prom = some c ∧ R.done = false) ∨
    (e = .begin c ∧ s.queue c = true) := by
  have resume : ∀ (s : St) a, (s.resumeAw a).starts = s.starts := by
    intro s a
    unfold St.resumeAw
    repeat' split
    all_goals rfl
  have move : ∀ (s : St) r r', (s.moveConstruct r r').starts = s.starts := by
    intro s r r'
    unfold St.moveConstruct
    dsimp only
    repeat' split
    all_goals rfl
  have start : ∀ (s : St) c', (s.start c').starts c ≠ s.starts c → c = c' := by
    intro s c' hs
    unfold St.start at hs
    split at hs
    · simp at hs
    · split at hs
      · simp at hs
      · simp only [upd_apply] at hs
        split at hs
        · assumption
        · simp at hs
  unfold St.step at h
  split at h
  · simp at h
  · rename_i hcan
    cases e <;> simp only at h
    case await a r =>
      left
      unfold St.await at h
      split at h
      · simp at h
      · rename_i R hR
        dsimp only at h
        split at h
        · rw [resume] at h; simp at h
        · rename_i hd
          split at h
          · simp at h
          · rename_i c' hp
            have := start _ _ h
            subst this
            exact ⟨a, r, R, rfl, hR, hp, by simpa using hd⟩
    case begin c' =>
      right
      have := start { s with queue := upd s.queue c' false } c' h
      subst this
      refine ⟨rfl, ?_⟩
      simp only [Bool.or_eq_true, Bool.not_eq_eq_eq_not, Bool.not_true, not_or, Bool.not_eq_true,
        Bool.not_eq_false] at hcan
      exact hcan.2
    case create => simp at h
    case noop => simp at h
    case interrupt a =>
      unfold St.interrupt at h
      split at h
      · simp at h
      · split at h
        · simp at h
        · split at h
          · simp at h
          · rw [resume] at h; simp at h
    case finish c' o =>
      unfold St.finish at h
      dsimp only at h
      split at h
      · simp at h
      · split at h
        · split at h <;> simp at h
        · split at h
          · simp at h
          · split at h
            · simp at h
            · rw [resume] at h; simp at h
    case kill =>
      unfold St.kill at h
      dsimp only at h
      split at h
      · simp at h
      · split at h
        · simp at h
        · split at h <;> simp at h
    case moveC r r' => rw [move] at h; simp at h
    case drop =>
      unfold St.destroyRec at h
      dsimp only at h
      split at h
      · simp at h
      · split at h
        · simp at h
        · split at h
          · simp at h
          · split at h <;> simp at h
    case spawn a r r' =>
      unfold St.spawn at h
      dsimp only at h
      split at h
      · simp at h
      · split at h
        · split at h <;> simp at h
        · split at h
          · simp [move] at h
          · simp [move] at h
    case deliver =>
      unfold St.deliver at h
      split at h
      · simp at h
      · split at h
        · simp at h
        · split at h <;> simp at h
    case cancel =>
      unfold St.cancel at h
      split at h
      · simp at h
      · split at h
        · simp at h
        · split at h
          · simp at h
          · split at h
            · simp at h
            · split at h <;> simp at h

/-- What an awaiter that waits gets: exactly the outcome. -/
def exact : Out → Got
  | .val v => .val v
  | .exc e => .err (.user e)

theorem run_append (es : List Ev) (e : Ev) : St.run (es ++ [e]) = (St.run es).step e := by
  simp [St.run, St.steps]

/-- **C29**: when the body ends its awaiter is resumed with exactly the outcome, and it is
the only one. -/
theorem C29_delivers_partial (es : List Ev) (ht : TidyRun {} {} es) {a r c : Nat} {R : Rec} {o : Out}
    (hR : (St.run es).recv r = some R) (ha : R.awaited = some a) (ho : R.owner = none)
    (hh : (spec es).holds r = .coro c) (hc : (St.run es).can (.finish c o) = true) :
    (St.run (es ++ [.finish c o])).log = (a, exact o) :: (St.run es).log := by
  have h := Inv.run ht
  obtain ⟨c', hx, he⟩ := h.awaitedGoing hR ha
  rw [hh] at hx; simp only [Holds.coro.injEq] at hx; subst hx
  have hg := h.going r R c hR hh he
  have hw := (h.waits r R a hR ha).1
  rw [run_append]
  unfold St.step
  rw [if_neg (by simp [h.ub, hc])]
  cases o <;> simp [St.finish, hg.2.2.2, hR, ha, St.resumeAw, hw, St.getResult, exact, hg.2.1, ho]

/-- **C29**: a task that was never started is destroyed with its handle, without running.
Of any state. -/
theorem C29_never_awaited {s : St} {r c : Nat} {R : Rec} {f : Frame} (hR : s.recv r = some R)
    (hd : R.done = false) (hp : R.prom = some c) (hf : s.frame c = some f) (hr : f.receiver = some r)
    (hs : f.started = false) (hu : s.ub = false) (hc : s.can (.drop r) = true) :
    (s.step (.drop r)).frame c = none ∧ (s.step (.drop r)).recv r = none ∧
    (s.step (.drop r)).starts = s.starts ∧ (s.step (.drop r)).log = s.log ∧ (s.step (.drop r)).ub = false := by
  unfold St.step
  rw [if_neg (by simp [hu, hc])]
  simp [St.destroyRec, hR, hd, hp, hf, hr, hs, hu]

/-- Five tasks: one is moved and awaited, one never, one interrupted and awaited again
after it has ended, two are spawned. -/
def sched : List Ev :=
  [.create 0 0, .create 1 1, .create 2 2, .create 3 3, .create 4 4,
   .moveC 0 5, .await 0 5, .drop 1, .await 1 2, .interrupt 1, .finish 0 (.val 7), .spawn 2 3 6, .drop 3,
   .begin 3, .finish 2 (.exc 8), .await 3 2, .cancel 2, .finish 3 (.val 9), .spawn 4 4 7, .begin 4, .deliver 2,
   .finish 4 (.exc 1), .deliver 4, .spawn 5 2 8, .deliver 5]

example : TidyRun {} {} sched := tidyRun_of (by decide)

example : (St.run sched).log = [(5, .err (.user 8)), (4, .err (.user 1)), (2, .val 9), (3, .err (.user 8)), (0, .val 7),
    (1, .err .detached)] := by decide

example : (St.run sched).starts 0 = 1 ∧ (St.run sched).starts 1 = 0 ∧ (St.run sched).frame 1 = none ∧
    (St.run sched).signals 3 = 1 := by decide

/-- The hypotheses of `C29_delivers_partial` and `C29_never_awaited`. -/
example : ((St.run (sched.take 7)).recv 5).map (·.awaited) = some (some 0) ∧ (spec (sched.take 7)).holds 5 = .coro 0 ∧
    (St.run (sched.take 7)).can (.finish 0 (.val 7)) = true ∧
    ((St.run (sched.take 7)).frame 1) = some { receiver := some 1 } ∧ (St.run (sched.take 7)).can (.drop 1) = true := by decide

/-- **C29** does not hold in full: awaiting a task again after its await was interrupted
resumes the body, which is suspended in another operation. A second await of a running
task does the same. -/
def again : List Ev := [.create 0 0, .await 0 0, .interrupt 0, .await 1 0]

theorem C29_violated : ¬C29 := by
  intro h
  have := (h again (by decide)).1
  revert this
  decide

/-- The second await moreover destroys the first awaiter. -/
theorem C29_second_violated : ∃ es, Legal {} es ∧ (St.run es).ub = true ∧ (St.run es).killed = [0] ∧
    es = [.create 0 0, .await 0 0, .await 1 0] :=
  ⟨_, by decide, by decide, by decide, rfl⟩

/-- **C29** does not hold either without undefined behaviour: interrupting an await that
has ended, as an interrupted `gather` does, replaces the outcome of the task. -/
theorem C29_lost_violated : ∃ es, Legal {} es ∧ (St.run es).ub = false ∧
    (spec es).target 1 = .coro 0 ∧ (spec es).ended 0 = some (.out (.val 5)) ∧ (spec es).asked 1 = false ∧
    (St.run es).log = [(1, .err .detached), (0, .err .detached)] :=
  ⟨[.create 0 0, .await 0 0, .interrupt 0, .interrupt 0, .finish 0 (.val 5), .await 1 0],
    by decide, by decide, by decide, by decide, by decide, by decide⟩

/-- Moving the task in that state leaves the coroutine with a pointer to the old object:
its end is written to an object that is gone. -/
theorem C29_moved_violated : ∃ es, Legal {} es ∧ (St.run es).ub = true ∧
    es = [.create 0 0, .await 0 0, .interrupt 0, .interrupt 0, .moveC 0 1, .drop 0, .finish 0 (.val 5)] :=
  ⟨_, by decide, by decide, rfl⟩

/-! ## C48 -/

/-- **C48** in full: the handler of a spawn whose coroutine has ended in any way was
called or is going to be called, with the outcome. -/
def C48 : Prop := ∀ es a w c e, TidyRun {} {} es → (St.run es).aw a = some w → w.spawned = true →
  (spec es).target a = .coro c → (spec es).ended c = some e →
  (∃ g, w.got = some g ∧ fits e g) ∨
  (St.run es).can (.deliver a) = true ∧ ∃ g, fits e g ∧ (St.run (es ++ [.deliver a])).log = (a, g) :: (St.run es).log

/-- **C48** for coroutines that end by themselves: the handler was called with the outcome,
or is in the queue, and will be. -/
theorem C48_called_partial (es : List Ev) (ht : TidyRun {} {} es) {a c : Nat} {w : Aw} {o : Out}
    (hw : (St.run es).aw a = some w) (hs : w.spawned = true) (hx : (spec es).target a = .coro c)
    (he : (spec es).ended c = some (.out o)) :
    (∃ g, w.got = some g ∧ Explains (spec es) a g) ∨
    (St.run es).can (.deliver a) = true ∧
      ∃ g, Explains (spec es) a g ∧ (St.run (es ++ [.deliver a])).log = (a, g) :: (St.run es).log ∧
        (w.ready = none → g = exact o) := by
  have h := Inv.run ht
  cases hg : w.got with
  | some g => exact Or.inl ⟨g, rfl, h.got a w g hw hg⟩
  | none =>
    right
    have hk : a ∉ (St.run es).killed := by
      intro hk
      obtain ⟨c', h1, h2⟩ := h.slain a w hk hw hs
      rw [hx] at h1; simp only [Holds.coro.injEq] at h1; subst h1
      rw [he] at h2; simp at h2
    have hp : w.posted = true := by
      cases hp : w.posted with
      | true => rfl
      | false =>
        obtain ⟨-, R, h5, h6, -⟩ := h.pend a w hw hg hk hp
        obtain ⟨c', h7, h8⟩ := h.awaitedGoing h5 h6
        have := h.tgt _ R a c' h5 h6 h7
        rw [hx] at this; simp only [Holds.coro.injEq] at this; subst this
        rw [he] at h8; simp at h8
    have hc : (St.run es).can (.deliver a) = true := by simp [St.can, hw, hp, hg]
    refine ⟨hc, ?_⟩
    rw [run_append]
    unfold St.step
    rw [if_neg (by simp [h.ub, hc])]
    cases hr : w.ready with
    | some g => exact ⟨g, h.postR a w g hw hg hp hr, by simp [St.deliver, hw, hr], by simp⟩
    | none =>
      obtain ⟨R, hR, ho, hd⟩ := h.postN a w hw hg hp hr
      obtain ⟨⟨c', hh, htg⟩, -, htk, -⟩ := h.owned _ R a hR ho
      rw [hx] at htg; simp only [Holds.coro.injEq] at htg; subst htg
      obtain ⟨-, -, hG⟩ := h.over _ R c _ hR hh he
      have : St.handed R = exact o := by
        cases o <;> simp only [Gives, htk] at hG <;> simp [St.handed, hG, exact]
      refine ⟨exact o, ?_, by simp [St.deliver, hw, hr, hR, this], fun _ => rfl⟩
      refine Or.inr ?_
      rw [hx]
      refine ⟨_, he, ?_⟩
      cases o <;> simp [fits, exact]

/-- **C48**: never more than once, and never with anything else. -/
theorem C48_once_partial (es : List Ev) (ht : TidyRun {} {} es) :
    (St.run es).ub = false ∧ ((St.run es).log.map Prod.fst).Nodup ∧
    ∀ a g, (a, g) ∈ (St.run es).log → Explains (spec es) a g :=
  have h := C29_once_partial es ht
  ⟨h.1, h.2.2.2.1, h.2.2.1⟩

/-- The hypotheses of `C48_called_partial`. -/
example : ((St.run (sched.take 18)).aw 2).map (·.spawned) = some true ∧ (spec (sched.take 18)).target 2 = .coro 3 ∧
    (spec (sched.take 18)).ended 3 = some (.out (.val 9)) := by decide

/-- **C48** does not hold for coroutines that are destroyed: the handler is destroyed with
them, without being called. -/
theorem C48_violated : ¬C48 := by
  intro h
  have := h [.create 0 0, .spawn 0 0 1, .begin 0, .kill 0] 0 { self := 1, spawned := true } 0 .killed
    (tidyRun_of (by decide)) (by decide) rfl (by decide) (by decide)
  revert this
  simp only [reduceCtorEq, false_and, exists_false, false_or]
  exact fun h => absurd h.1 (by decide)

/-- Spawning a task whose await was interrupted resumes a body suspended elsewhere. -/
theorem C48_started_violated : ∃ es, Legal {} es ∧ (St.run es).ub = true ∧
    es = [.create 0 0, .await 0 0, .interrupt 0, .spawn 1 0 1, .begin 0] :=
  ⟨_, by decide, by decide, rfl⟩

end Cobalt.Task
