import Verif.Py.Fut
/-!
# C107: Python and the coroutine exchange values without losing any

Full statement: every `await obj` of Python ends once, with what the coroutine makes next; `async for` runs its body with what
the coroutine yields; nothing that is gone is touched and the frame is freed once; a coroutine that awaits a task of Python is
resumed with the outcome of the task; and the coroutines it starts run on the loop that awaits it.
-/
namespace Cobalt.Py

/-- An ordinary use: two awaits, the second answered by the end, with a task of Python in between. -/
abbrev normal : List Ev :=
  [.await 1 0, .act (.yield 5), .callback, .await 2 0, .awaitTask, .taskEnds (some (.val 7)), .taskCallback, .act (.ret 6),
   .callback, .await 3 0, .drop]

example : Legal {} [] normal ∧ (run normal).got = [(1, .out (.val 5)), (2, .out (.val 6)), (3, .invalid)] ∧
    (run normal).resumed = [.val 7] ∧ (run normal).freed = 1 ∧ (run normal).ub = false := by decide

/-- The one who awaits is cancelled, the object goes, and the coroutine, which was waiting for a timer, yields. -/
abbrev abandoned : List Ev := [.await 1 0, .cancel 1, .drop, .act (.yield 5)]

/-! ## What is gone is not touched -/

theorem late_gone (es : List Ev) : ∀ s : St, s.alive = false →
    ((s.steps es).ub = true ↔ s.ub = true ∨ es.any Ev.yields = true) := by
  induction es with
  | nil => intro s _; simp [St.steps]
  | cons e es ih =>
    intro s ha
    have hst : s.steps (e :: es) = (s.step e).steps es := rfl
    rw [hst]
    cases hu : s.ub with
    | true =>
      rw [ub_stays s hu, ih s ha, hu]; simp
    | false =>
      have hg : s.step e = s.go e := by unfold St.step; rw [hu]; rfl
      have key : (s.go e).alive = false ∧ ((s.go e).ub = e.yields) := by
        cases e with
        | await f l => simp only [St.go, St.await, Ev.yields]; repeat' split
                       all_goals exact ⟨ha, hu⟩
        | act a => cases a <;> simp [St.go, St.act, Ev.yields, ha, hu]
        | callback => simp only [St.go, St.callback, Ev.yields]; repeat' split
                      all_goals exact ⟨ha, hu⟩
        | cancel f => simp only [St.go, St.cancel, Ev.yields]; split <;> exact ⟨ha, hu⟩
        | drop => simp only [St.go, St.drop, Ev.yields]; split <;> exact ⟨rfl, hu⟩
        | awaitTask => exact ⟨ha, hu⟩
        | taskEnds t => cases t <;> exact ⟨ha, hu⟩
        | taskCallback => simp only [St.go, St.taskCallback, Ev.yields]; split <;> exact ⟨ha, hu⟩
      rw [hg, ih _ key.1, key.2]
      simp

/-- Exactly, for every run: something that is gone is touched if and only if the coroutine yields after the object of Python
is gone. -/
theorem C107_safe_exact (es : List Ev) : (run es).ub = true ↔ late es = true := by
  have : ∀ (es : List Ev) (s : St), s.alive = true → s.ub = false → ((s.steps es).ub = true ↔ late es = true) := by
    intro es
    induction es with
    | nil => intro s _ hu; simp [St.steps, late, hu]
    | cons e es ih =>
      intro s ha hu
      have hst : s.steps (e :: es) = (s.step e).steps es := rfl
      have hg : s.step e = s.go e := by unfold St.step; rw [hu]; rfl
      rw [hst, hg]
      by_cases hd : e = .drop
      · subst hd
        have h1 : (s.go .drop).alive = false := by simp only [St.go, St.drop]; split <;> rfl
        have h2 : (s.go .drop).ub = false := by simp only [St.go, St.drop]; split <;> exact hu
        rw [late_gone es _ h1, h2]
        simp [late]
      · have key : (s.go e).alive = true ∧ (s.go e).ub = false := by
          cases e with
          | await f l => simp only [St.go, St.await]; repeat' split
                         all_goals exact ⟨ha, hu⟩
          | act a => cases a <;> simp [St.go, St.act, ha, hu]
          | callback => simp only [St.go, St.callback]; repeat' split
                        all_goals exact ⟨ha, hu⟩
          | cancel f => simp only [St.go, St.cancel]; split <;> exact ⟨ha, hu⟩
          | drop => exact absurd rfl hd
          | awaitTask => exact ⟨ha, hu⟩
          | taskEnds t => cases t <;> exact ⟨ha, hu⟩
          | taskCallback => simp only [St.go, St.taskCallback]; split <;> exact ⟨ha, hu⟩
        have hl : late (e :: es) = late es := by cases e <;> first | rfl | exact absurd rfl hd
        rw [ih _ key.1 key.2, hl]
  exact this es {} rfl rfl

/-- It happens: cancelling who awaits drops the last reference while the coroutine goes on. -/
theorem C107_safe_violated : Legal {} [] abandoned ∧ (run abandoned).ub = true := by decide

/-- It does not if nobody is cancelled: who awaits keeps the object. -/
theorem C107_safe_partial {es : List Ev} (hl : Legal {} [] es) (hc : cancels es = []) : (run es).ub = false := by
  refine legal_ind (P := fun es => cancels es = [] → (run es).ub = false) (fun _ => rfl) ?_ es hl hc
  intro es e hl ih ok hc
  rw [cancels_append] at hc
  have hn := (List.append_eq_nil_iff.1 hc).1
  have hu := ih hn
  have i := fu hl hu
  have hg : (run es).step e = (run es).go e := by unfold St.step; rw [hu]; rfl
  rw [run_snoc, hg]
  cases e with
  | await f l => simp only [St.go, St.await]; repeat' split
                 all_goals exact hu
  | act a =>
    cases a with
    | yield v =>
      have ha : (run es).alive = true := by
        cases ha : (run es).alive with
        | true => rfl
        | false => have := i.gone ha ok.1; rw [hn] at this; cases this
      simp [St.go, St.act, ha, hu]
    | _ => simp [St.go, St.act, hu]
  | callback => simp only [St.go, St.callback]; repeat' split
                all_goals exact hu
  | cancel f => simp only [St.go, St.cancel]; split <;> exact hu
  | drop => simp only [St.go, St.drop]; split <;> exact hu
  | awaitTask => exact hu
  | taskEnds t => cases t <;> exact hu
  | taskCallback => simp only [St.go, St.taskCallback]; split <;> exact hu

example : Legal {} [] normal ∧ cancels normal = [] := by decide

/-! ## What is made arrives -/

/-- Exactly: of what the coroutine has made, as far as the loop has come, that arrives, in order and where it should, whose
await was not cancelled; the rest is lost. What the loop has not come to is in its queue. -/
theorem C107_exact {es : List Ev} (hl : Legal {} [] es) (hu : (run es).ub = false) :
    outs (run es).got = ((hist es).made.take (callbacks es)).filter (fun x => !(cancels es).contains x.1) ∧
    (run es).lost = ((hist es).made.take (callbacks es)).filter (fun x => (cancels es).contains x.1) ∧
    (run es).queue = (hist es).made.drop (callbacks es) :=
  ⟨(fu hl hu).dl, (fu hl hu).lo, (fu hl hu).qu⟩

example : (hist normal).made = [(1, .val 5), (2, .val 6)] ∧ callbacks normal = 2 := by decide

/-- If nobody is cancelled all of it arrives. -/
theorem C107_arrives_partial {es : List Ev} (hl : Legal {} [] es) (hc : cancels es = []) :
    outs (run es).got ++ (run es).queue = (hist es).made ∧ (run es).lost = [] := by
  obtain ⟨h1, h2, h3⟩ := C107_exact hl (C107_safe_partial hl hc)
  rw [hc] at h1 h2
  have h1 : outs (run es).got = (hist es).made.take (callbacks es) := by
    rw [h1]; exact List.filter_eq_self.2 fun x _ => by simp
  exact ⟨by rw [h1, h3, List.take_append_drop], by rw [h2]; exact List.filter_eq_nil_iff.2 fun x _ => by simp⟩

/-- A value that is made after who awaits was cancelled is lost, though the object is awaited again. -/
theorem C107_lost_violated : ∃ es, Legal {} [] es ∧ (run es).ub = false ∧ (run es).queue = [] ∧
    (hist es).made = [(1, .val 5), (2, .val 6)] ∧ outs (run es).got = [(2, .val 6)] ∧ (run es).lost = [(1, .val 5)] :=
  ⟨[.await 1 0, .cancel 1, .act (.yield 5), .callback, .await 2 0, .act (.yield 6), .callback], by decide⟩

/-- Every await ends at most once; it is waiting or has ended. -/
theorem C107_once {es : List Ev} (hl : Legal {} [] es) (hu : (run es).ub = false) :
    ((run es).got.map Prod.fst ++ (run es).pending).Perm (awaits es) ∧ (awaits es).Nodup :=
  ⟨(fu hl hu).perm, (fu hl hu).and'⟩

example : awaits normal = [1, 2, 3] ∧ (run normal).pending = [] := by decide

/-- When the coroutine is at rest and the queue is empty, every await has ended, if no task the coroutine awaited was
cancelled. -/
theorem C107_answered_partial {es : List Ev} (hl : Legal {} [] es) (hu : (run es).ub = false) (ht : none ∉ tasks es)
    (hr : (run es).running = false) (hq : (run es).queue = []) : ∀ f ∈ awaits es, f ∈ (run es).got.map Prod.fst := by
  have i := fu hl hu
  intro f hf
  rcases List.mem_append.1 (i.perm.mem_iff.2 hf) with h | h
  · exact h
  · have := i.ans ht f h
    rw [hq] at this
    simp [St.works, hr] at this

example : Legal {} [] normal ∧ none ∉ tasks normal ∧ (run normal).running = false ∧ (run normal).queue = [] := by decide

/-- "coroutine completed" (line 170) is never thrown: who awaits a coroutine that has ended is told that it is invalid. -/
theorem C107_stop_never {es : List Ev} (hl : Legal {} [] es) (hu : (run es).ub = false) : ∀ x ∈ (run es).got, x.2 ≠ .stop :=
  (fu hl hu).nostop

/-! ## The frame -/

/-- The frame is freed at most once, and it is freed once the object is gone and the coroutine is at rest, and also once it
has ended. -/
theorem C107_frame {es : List Ev} (hl : Legal {} [] es) (hu : (run es).ub = false) :
    (run es).freed ≤ 1 ∧ ((run es).frame = true ↔ (run es).freed = 0) ∧
    ((run es).alive = false → (run es).running = false → (run es).freed = 1) ∧ ((run es).done = true → (run es).freed = 1) := by
  have p := ph hl hu
  refine ⟨?_, p.frame, ?_, p.dn⟩
  · cases hh : (run es).handle with
    | true => rw [(p.held hh).2.2.2.1]; omega
    | false =>
      cases hr : (run es).running with
      | true => rw [(p.runs hr).2.2]; omega
      | false => rw [(p.rest hh hr).1]; omega
  · intro ha hr
    cases hh : (run es).handle with
    | true => rw [(p.held hh).2.2.1] at ha; cases ha
    | false => exact (p.rest hh hr).1

/-- A coroutine that is dropped before it ends, and one that ends after it was dropped. -/
example :
    let a : List Ev := [.await 1 0, .act (.yield 5), .callback, .drop]
    let b : List Ev := [.await 1 0, .cancel 1, .drop, .act (.ret 5), .callback]
    Legal {} [] a ∧ (run a).freed = 1 ∧ Legal {} [] b ∧ (run b).freed = 1 ∧ (run b).ub = false := by decide

/-! ## Awaiting a task of Python -/

/-- What the coroutine was told, and whether the callback of the last task is still to come. -/
structure Tk (es : List Ev) (s : St) : Prop where
  told : s.task ≠ some .cancelled → (∀ o, s.task ≠ some (.ended o)) → s.resumed = (tasks es).filterMap id
  soon : ∀ o, s.task = some (.ended o) → s.resumed ++ [o] = (tasks es).filterMap id
  same : s.task = some .cancelled → s.resumed = (tasks es).filterMap id
  dead : none ∈ tasks es → s.task ≠ some .cancelled → s.frame = false ∧ s.running = false
  last : none ∈ tasks es → s.task = some .cancelled ∨ s.task = none

theorem tk {es : List Ev} (hl : Legal {} [] es) : (run es).ub = false → Tk es (run es) := by
  refine legal_ind (P := fun es => (run es).ub = false → Tk es (run es)) ?_ ?_ es hl
  · intro _; constructor <;> simp [run, St.steps, tasks]
  · intro es e hl ih ok hu
    have h := ub_snoc hu
    have p := ph hl h
    have i := ih h
    have hg : (run es).step e = (run es).go e := by unfold St.step; rw [h]; rfl
    rw [run_snoc, hg] at hu ⊢
    generalize run es = s at *
    obtain ⟨i1, i2, i3, i4, i5⟩ := i
    cases e with
    | await f l =>
      have et : tasks (es ++ [.await f l]) = tasks es := by simp [tasks_append, tasks]
      have q : (s.go (.await f l)).task = s.task ∧ (s.go (.await f l)).resumed = s.resumed ∧
          (s.go (.await f l)).frame = s.frame ∧ (s.frame = false → (s.go (.await f l)).running = s.running) := by
        simp only [St.go, St.await]
        have := p.frame
        have := p.held
        repeat' split
        all_goals simp_all
      obtain ⟨q1, q2, q3, q4⟩ := q
      constructor
      · rw [et, q1, q2]; exact i1
      · rw [et, q1, q2]; exact i2
      · rw [et, q1, q2]; exact i3
      · rw [et, q1, q3]; intro h1 h2; have := i4 h1 h2; exact ⟨this.1, by rw [q4 this.1]; exact this.2⟩
      · rw [et, q1]; exact i5
    | act a =>
      have et : tasks (es ++ [.act a]) = tasks es := by simp [tasks_append, tasks]
      obtain ⟨o1, o2⟩ := ok
      have hn : none ∉ tasks es := by
        intro hn
        have := i4 hn (by rw [o2]; simp)
        rw [this.2] at o1; cases o1
      have q : (s.go (.act a)).task = s.task ∧ (s.go (.act a)).resumed = s.resumed := by
        cases a with
        | yield v => simp only [St.go, St.act]; split <;> exact ⟨rfl, rfl⟩
        | _ => exact ⟨rfl, rfl⟩
      constructor
      · rw [et, q.1, q.2]; exact i1
      · rw [et, q.1, q.2]; exact i2
      · rw [et, q.1, q.2]; exact i3
      · rw [et]; intro h'; exact absurd h' hn
      · rw [et]; intro h'; exact absurd h' hn
    | callback =>
      have et : tasks (es ++ [.callback]) = tasks es := by simp [tasks_append, tasks]
      have q : ∀ {P : St → Prop}, (∀ a b c d, P { s with queue := a, pending := b, got := c, lost := d }) →
          P (s.go .callback) := by
        intro P hP
        simp only [St.go, St.callback]
        split
        · exact hP s.queue s.pending s.got s.lost
        · next f o q _ =>
          split
          · exact hP q (s.pending.erase f) (s.got ++ [(f, .out o)]) s.lost
          · exact hP q s.pending s.got (s.lost ++ [(f, o)])
      refine q fun a b c d => ?_
      constructor <;> rw [et] <;> assumption
    | cancel f =>
      have et : tasks (es ++ [.cancel f]) = tasks es := by simp [tasks_append, tasks]
      simp only [St.go, St.cancel]
      split <;> (constructor <;> rw [et] <;> assumption)
    | drop =>
      have et : tasks (es ++ [.drop]) = tasks es := by simp [tasks_append, tasks]
      simp only [St.go, St.drop]
      split
      · constructor
        · rw [et]; exact i1
        · rw [et]; exact i2
        · rw [et]; exact i3
        · rw [et]; intro h1 h2; exact ⟨rfl, (i4 h1 h2).2⟩
        · rw [et]; exact i5
      · constructor <;> rw [et] <;> assumption
    | awaitTask =>
      have et : tasks (es ++ [.awaitTask]) = tasks es := by simp [tasks_append, tasks]
      obtain ⟨o1, o2⟩ := ok
      have hn : none ∉ tasks es := by
        intro hn
        have := i4 hn (by rw [o2]; simp)
        rw [this.2] at o1; cases o1
      constructor <;> simp_all [St.go]
    | taskEnds t =>
      have ok : s.task = some .pending := ok
      have et : tasks (es ++ [.taskEnds t]) = tasks es ++ [t] := by simp [tasks_append, tasks]
      have hn : none ∉ tasks es := by intro hn; have := i5 hn; simp [ok] at this
      have h1 := i1 (by simp [ok]) (by simp [ok])
      cases t <;> constructor <;> simp_all [St.go]
    | taskCallback =>
      have et : tasks (es ++ [.taskCallback]) = tasks es := by simp [tasks_append, tasks]
      simp only [St.go, St.taskCallback]
      split
      · next o ho =>
        have hn : none ∉ tasks es := by intro hn; have := i5 hn; simp [ho] at this
        have := i2 o ho
        constructor <;> simp_all
      · next ho =>
        have := i3 ho
        constructor <;> simp_all
      · constructor <;> rw [et] <;> assumption

/-- Exactly: the coroutine is told how the tasks ended that it awaited, but for one that was cancelled. If one was, the
coroutine is destroyed. -/
theorem C107_task_exact {es : List Ev} (hl : Legal {} [] es) (hu : (run es).ub = false) (ht : (run es).task = none) :
    (run es).resumed = (tasks es).filterMap id ∧ (none ∈ tasks es → (run es).frame = false ∧ (run es).running = false) :=
  ⟨(tk hl hu).told (by rw [ht]; simp) (by rw [ht]; simp), fun h => (tk hl hu).dead h (by rw [ht]; simp)⟩

example : tasks normal = [some (.val 7)] ∧ (run normal).task = none := by decide

/-- A task of Python is cancelled that the coroutine awaits for somebody. -/
abbrev hung : List Ev := [.await 1 0, .awaitTask, .taskEnds none, .taskCallback]

/-- It is destroyed while it awaits, and who awaits it is not answered. -/
theorem C107_task_violated : Legal {} [] hung ∧ (run hung).ub = false ∧ (run hung).resumed = [] ∧ (run hung).frame = false ∧
    (run hung).queue = [] ∧ (run hung).pending = [1] := by decide

/-- Whatever happens from there, who awaits it is not answered, but by being cancelled. -/
theorem C107_hung_violated (es : List Ev) (hl : Legal {} [] (hung ++ es)) (hc : 1 ∉ cancels es) :
    1 ∈ (run (hung ++ es)).pending := by
  have hl' := (legal_append _ _ _ _).1 hl
  have key : ∀ (es : List Ev) (s : St) (u : List Nat), Legal s u es → 1 ∉ cancels es →
      s.handle = false → s.running = false → s.task = none → s.queue = [] → 1 ∈ s.pending → 1 ∈ (s.steps es).pending := by
    intro es
    induction es with
    | nil => intro s u _ _ _ _ _ _ h; exact h
    | cons e es ih =>
      intro s u hl hc h1 h2 h3 h4 h5
      have hst : s.steps (e :: es) = (s.step e).steps es := rfl
      rw [hst]
      have hc' : 1 ∉ cancels es := by
        intro h'; apply hc; cases e <;> simp [cancels, h']
      have go : ∀ s' : St, s.step e = s' → s'.handle = false → s'.running = false → s'.task = none → s'.queue = [] →
          1 ∈ s'.pending → 1 ∈ ((s.step e).steps es).pending := by
        intro s' hs a b c d f
        rw [hs]
        exact ih s' _ (hs ▸ hl.2) hc' a b c d f
      cases hu : s.ub with
      | true => exact go s (ub_stays s hu e) h1 h2 h3 h4 h5
      | false =>
        have hg : s.step e = s.go e := by unfold St.step; rw [hu]; rfl
        have ok := hl.1
        cases e with
        | await f l =>
          exact go { s with got := s.got ++ [(f, .invalid)] } (by rw [hg]; simp [St.go, St.await, h1]) h1 h2 h3 h4 h5
        | act a => have := ok.1; rw [h2] at this; cases this
        | callback => exact absurd h4 ok
        | cancel f =>
          have hne : 1 ≠ f := by intro h'; apply hc; simp [cancels, h']
          have ok : f ∈ s.pending := ok
          exact go { s with pending := s.pending.erase f, got := s.got ++ [(f, .cancelled)] }
            (by rw [hg]; simp [St.go, St.cancel, ok]) h1 h2 h3 h4 ((List.mem_erase_of_ne hne).2 h5)
        | drop => exact go { s with alive := false } (by rw [hg]; simp [St.go, St.drop, h1]) h1 h2 h3 h4 h5
        | awaitTask => have := ok.1; rw [h2] at this; cases this
        | taskEnds t => have ok : s.task = some .pending := ok; rw [h3] at ok; cases ok
        | taskCallback => exact absurd h3 ok.1
  have hrun : run (hung ++ es) = (run hung).steps es := by simp [run, St.steps, List.foldl_append]
  rw [hrun]
  exact key es (run hung) _ hl'.2 hc (by decide) (by decide) (by decide) (by decide) (by decide)

/-! ## `async for` -/

/-- Where the loop stands between two turns: the coroutine has yielded and nothing else is going on. -/
structure Turn (n : Nat) (s : St) : Prop where
  alive : s.alive = true
  handle : s.handle = true
  done : s.done = false
  queue : s.queue = []
  pending : s.pending = []
  ub : s.ub = false

theorem turn_yield {n : Nat} {s : St} (t : Turn n s) (v : Nat) :
    Turn (n + 1) (s.steps [.await n 0, .act (.yield v), .callback]) ∧
    (s.steps [.await n 0, .act (.yield v), .callback]).got.getLast? = some (n, .out (.val v)) := by
  obtain ⟨h1, h2, h3, h4, h5, h6⟩ := t
  have e : s.steps [.await n 0, .act (.yield v), .callback] = { s with
      future := n, handle := true, running := false, pending := [], tls := some (s.tls.getD 0), queue := []
      got := s.got ++ [(n, .out (.val v))] } := by
    simp [St.steps, St.step, St.go, St.await, St.act, St.callback, h1, h2, h3, h4, h5, h6]
  rw [e]
  exact ⟨⟨h1, rfl, h3, rfl, rfl, h6⟩, by simp⟩

/-- The body of `async for` is run with what the coroutine yields and then also with what it returns. Then the loop ends: it
does not ask for more, `as`. -/
theorem C107_for_exact (vs : List Nat) (r : Nat) (as : List Act) : ∀ (n : Nat) (s : St), Turn n s →
    forLoop n s (vs.map .yield ++ .ret r :: as) = (vs ++ [r], none) := by
  induction vs with
  | nil =>
    intro n s t
    obtain ⟨h1, h2, h3, h4, h5, h6⟩ := t
    cases as <;>
      simp [forLoop, St.isDone, St.steps, St.step, St.go, St.await, St.act, St.callback, h2, h3, h4, h5, h6]
  | cons v vs ih =>
    intro n s t
    have h := turn_yield t v
    have hd : s.isDone = false := by simp [St.isDone, t.handle, t.done]
    rw [List.map_cons, List.cons_append, forLoop]
    simp only [hd, Bool.false_eq_true, if_false, h.2, ih _ _ h.1]
    rfl

/-- If it ends by an exception, the loop ends by it. -/
theorem C107_for_throws (vs : List Nat) (x : Nat) : ∀ (n : Nat) (s : St), Turn n s →
    forLoop n s (vs.map .yield ++ [.throw x]) = (vs, some x) := by
  induction vs with
  | nil =>
    intro n s t
    obtain ⟨h1, h2, h3, h4, h5, h6⟩ := t
    simp [forLoop, St.isDone, St.steps, St.step, St.go, St.await, St.act, St.callback, h2, h3, h4, h5, h6]
  | cons v vs ih =>
    intro n s t
    have h := turn_yield t v
    have hd : s.isDone = false := by simp [St.isDone, t.handle, t.done]
    rw [List.map_cons, List.cons_append, forLoop]
    simp only [hd, Bool.false_eq_true, if_false, h.2, ih _ _ h.1]

/-- While the object lives, `done` says that the coroutine is over, or that it runs for somebody who awaits. -/
theorem C107_done_exact {es : List Ev} (hl : Legal {} [] es) (hu : (run es).ub = false) (ha : (run es).alive = true) :
    (run es).isDone = true ↔ (hist es).over = true ∨ (hist es).cur ≠ none := by
  obtain ⟨i1, i2, i3, i4, i5, i6, i7, i8, i9⟩ := ph hl hu
  unfold St.isDone
  cases hh : (run es).handle with
  | true =>
    obtain ⟨h1, h2, -, -, h3⟩ := i3 hh
    simp [h2, h3, i1, h1]
  | false =>
    simp only [Bool.not_false, Bool.true_or, true_iff]
    cases hr : (run es).running with
    | false =>
      rcases (i5 hh hr).2 with h | h
      · exact .inl h
      · rw [ha] at h; cases h
    | true =>
      by_cases ht : (run es).task = some .cancelled
      · exact .inl (i2 ht)
      · right
        rw [i1, hr]
        simp [ht]

/-- So a second `async for` over the object ends at once, without an error, while the first has not seen the end. -/
theorem C107_done_violated : ∃ es, Legal {} [] es ∧ (run es).ub = false ∧ (run es).alive = true ∧
    (run es).isDone = true ∧ (hist es).over = false ∧ forLoop 2 (run es) [.yield 5] = ([], none) :=
  ⟨[.await 1 0], by decide⟩

/-- Between two awaits it does not. -/
example : Legal {} [] [.await 1 0, .act (.yield 5), .callback] ∧ (run [.await 1 0, .act (.yield 5), .callback]).isDone = false := by
  decide

/-- A new object is such a state. -/
example : Turn 1 {} := by constructor <;> rfl

/-- So the body is run once too often, whatever the coroutine yields, as with the generator of the example
(lines 348-354). -/
theorem C107_for_violated (vs : List Nat) (r : Nat) : (forLoop 1 {} (vs.map .yield ++ [.ret r])).1 ≠ vs := by
  rw [C107_for_exact vs r [] 1 {} (by constructor <;> rfl)]
  intro h
  have := congrArg List.length h
  simp at this

example : forLoop 1 {} [.yield 1, .yield 2, .ret 0] = ([1, 2, 0], none) := by decide

/-! ## The loop -/

/-- Exactly: the executor the thread has, which the coroutines use that are started by this one, is the one of the loop that
was the first to await. -/
theorem C107_loop_exact {es : List Ev} (hl : Legal {} [] es) : (run es).tls = firstLoop es := by
  have keep : ∀ (es : List Ev) (s : St) (l : Nat), s.tls = some l → (s.steps es).tls = some l := by
    intro es
    induction es with
    | nil => intro s l h; exact h
    | cons e es ih =>
      intro s l h
      have hst : s.steps (e :: es) = (s.step e).steps es := rfl
      rw [hst]
      apply ih
      cases hu : s.ub with
      | true => rw [ub_stays s hu]; exact h
      | false =>
        have hg : s.step e = s.go e := by unfold St.step; rw [hu]; rfl
        rw [hg]
        cases e with
        | await f k => simp only [St.go, St.await]; repeat' split
                       all_goals simp [h]
        | act a => cases a <;> simp only [St.go, St.act] <;> (try split) <;> exact h
        | callback => simp only [St.go, St.callback]; repeat' split
                      all_goals exact h
        | cancel f => simp only [St.go, St.cancel]; split <;> exact h
        | drop => simp only [St.go, St.drop]; split <;> exact h
        | awaitTask => exact h
        | taskEnds t => cases t <;> exact h
        | taskCallback => simp only [St.go, St.taskCallback]; split <;> exact h
  cases es with
  | nil => rfl
  | cons e es =>
    cases e with
    | await f l => exact keep es _ l rfl
    | drop =>
      have dead : ∀ (es : List Ev) (s : St) (u : List Nat), Legal s u es → s.alive = false → s.tls = none → s.queue = [] →
          s.running = false → s.task = none → s.pending = [] → (s.steps es).tls = firstLoop es := by
        intro es s u hl h1 h2 h3 h4 h5 h6
        cases es with
        | nil => exact h2
        | cons e es =>
          have ok := hl.1
          cases e with
          | await f l => have := ok.1; rw [h1] at this; cases this
          | act a => have := ok.1; rw [h4] at this; cases this
          | callback => exact absurd h3 ok
          | cancel f => have ok : f ∈ s.pending := ok; rw [h6] at ok; cases ok
          | drop => have := ok.1; rw [h1] at this; cases this
          | awaitTask => have := ok.1; rw [h4] at this; cases this
          | taskEnds t => have ok : s.task = some .pending := ok; rw [h5] at ok; cases ok
          | taskCallback => exact absurd h5 ok.1
      exact dead es _ _ hl.2 rfl rfl rfl rfl rfl rfl
    | act a => have := hl.1.1; cases this
    | callback => exact absurd rfl hl.1
    | cancel f => cases (hl.1 : f ∈ [])
    | awaitTask => have := hl.1.1; cases this
    | taskEnds t => cases (hl.1 : (none : Option Task) = some .pending)
    | taskCallback => exact absurd rfl hl.1.1

/-- So a coroutine awaited on another loop, after the first has ended, runs the ones it starts on the first. -/
theorem C107_loop_violated : ∃ es, Legal {} [] (es ++ [.await 2 1]) ∧ (run (es ++ [.await 2 1])).running = true ∧
    (run (es ++ [.await 2 1])).tls = some 0 :=
  ⟨[.await 1 0, .act (.yield 5), .callback], by decide⟩

end Cobalt.Py
