import Verif.Args.Spec
/-!
# Properties of the search among the arguments
-/
namespace Cobalt.Args

theorem find_append (tag : Arg) (pre l : List Arg) (h : tag ∉ pre) :
    find tag (pre ++ l) = pre.length + find tag l := by
  induction pre with
  | nil => simp
  | cons a pre ih =>
    have ha : a ≠ tag := fun e => h (e ▸ List.mem_cons_self ..)
    have hp : tag ∉ pre := fun m => h (List.mem_cons_of_mem _ m)
    simp only [List.cons_append, find, if_neg ha, ih hp, List.length_cons]
    omega

theorem find_absent (tag : Arg) (l : List Arg) (h : tag ∉ l) : find tag l = l.length := by
  have := find_append tag l [] h
  simpa [find] using this

theorem find_after {tag x : Arg} {args : List Arg} (h : AfterFirst tag args x) :
    args.length ≠ find tag args ∧ args[find tag args + 1]? = some x := by
  obtain ⟨pre, post, rfl, hp⟩ := h
  rw [find_append _ _ _ hp]
  simp only [find, if_true, Nat.add_zero, List.length_append, List.length_cons]
  refine ⟨by omega, ?_⟩
  rw [List.getElem?_append_right (by omega)]
  simp [show pre.length + 1 - pre.length = 1 by omega]

theorem after_found {tag x : Arg} {args : List Arg} (h : args[find tag args + 1]? = some x) :
    AfterFirst tag args x := by
  induction args with
  | nil => simp at h
  | cons a l ih =>
    unfold find at h
    split at h
    · rename_i ha
      subst ha
      cases l with
      | nil => simp at h
      | cons b l =>
        simp only [Nat.zero_add, List.getElem?_cons_succ, List.getElem?_cons_zero, Option.some.injEq] at h
        subst h
        exact ⟨[], l, rfl, by simp⟩
    · rename_i ha
      simp only [List.getElem?_cons_succ] at h
      obtain ⟨pre, post, hl, hp⟩ := ih h
      exact ⟨a :: pre, post, by rw [hl]; rfl, by
        intro hm
        rcases List.mem_cons.1 hm with e | m
        · exact ha e.symm
        · exact hp m⟩

/-- **C52**, in full: the executor, the allocator and the frame's memory of a coroutine come
from the argument after the first tag, or from the thread. -/
def C52 : Prop := ∀ (k : Kind) (env : Env) (args : List Arg),
  (∀ e, AfterFirst .execTag args (.exec e) → k.executor env args = some (some (.exec e))) ∧
  (.execTag ∉ args →
    (∀ e, env.exec = some e → k.executor env args = some (some (.exec e))) ∧
    (env.exec = none → k.executor env args = some (some .throws))) ∧
  (∀ r, AfterFirst .allocTag args (.alloc r) → k.allocator env args = some r ∧ k.frame env args = some r) ∧
  (.allocTag ∉ args → k.allocator env args = some env.res ∧ k.frame env args = some env.res)

theorem getExecutor_tag (env : Env) (args : List Arg) (e : Nat) (h : AfterFirst .execTag args (.exec e)) :
    getExecutor env args = some (.exec e) := by
  obtain ⟨h1, h2⟩ := find_after h
  simp only [getExecutor, if_neg h1, h2]

theorem getExecutor_none (env : Env) (args : List Arg) (h : .execTag ∉ args) :
    getExecutor env args = some env.getExec := by
  simp only [getExecutor, find_absent _ _ h, if_true]

theorem getResource_tag (env : Env) (args : List Arg) (r : Nat) (h : AfterFirst .allocTag args (.alloc r)) :
    getResource env args = some r ∧ getResourceGlobal env args = some r := by
  obtain ⟨h1, h2⟩ := find_after h
  simp only [getResource, getResourceGlobal, resourceAt, if_neg h1, h2, and_self]

theorem getResource_none (env : Env) (args : List Arg) (h : .allocTag ∉ args) :
    getResource env args = some env.res ∧ getResourceGlobal env args = some env.global := by
  simp only [getResource, getResourceGlobal, find_absent _ _ h, if_true, and_self]

/-- **C52**, as far as it holds: for all kinds but tasks. -/
theorem C52_partial (k : Kind) (hk : k ≠ .task) (env : Env) (args : List Arg) :
    (∀ e, AfterFirst .execTag args (.exec e) → k.executor env args = some (some (.exec e))) ∧
    (.execTag ∉ args →
    (∀ e, env.exec = some e → k.executor env args = some (some (.exec e))) ∧
    (env.exec = none → k.executor env args = some (some .throws))) ∧
    (∀ r, AfterFirst .allocTag args (.alloc r) → k.allocator env args = some r ∧ k.frame env args = some r) ∧
    (.allocTag ∉ args → k.allocator env args = some env.res ∧ k.frame env args = some env.res) := by
  have hx : k.executor env args = some (getExecutor env args) := by
    cases k <;> first | rfl | exact absurd rfl hk
  have ha : k.allocator env args = getResource env args := by
    cases k <;> first | rfl | exact absurd rfl hk
  rw [hx, ha]
  refine ⟨fun e h => by rw [getExecutor_tag env args e h], fun h => by
      rw [getExecutor_none env args h]
      exact ⟨fun e he => by rw [Env.getExec, he], fun he => by rw [Env.getExec, he]⟩,
    fun r h => ?_, fun h => ?_⟩
  · exact ⟨(getResource_tag env args r h).1, (getResource_tag env args r h).1⟩
  · exact ⟨(getResource_none env args h).1, (getResource_none env args h).1⟩

/-- Two executors, an allocator in between, and an argument before. -/
def mixed : List Arg :=
  [.other 1, .execTag, .exec 5, .allocTag, .alloc 7, .execTag, .exec 6]

example : AfterFirst .execTag mixed (.exec 5) ∧ AfterFirst .allocTag mixed (.alloc 7) ∧
    Kind.promise.executor ⟨some 1, 2, 3⟩ mixed = some (some (.exec 5)) ∧
    Kind.promise.allocator ⟨some 1, 2, 3⟩ mixed = some 7 :=
  ⟨⟨[.other 1], _, rfl, by decide⟩, ⟨[.other 1, .execTag, .exec 5], _, rfl, by decide⟩, by decide, by decide⟩

/-- The tag and what follows may be anywhere: nothing before the tag matters, nothing after
what follows, and the other kind of tag neither. -/
theorem C52_exact (env : Env) (args : List Arg) (e : Nat) (h : .execTag ∈ args) :
    getExecutor env args = some (.exec e) ↔ AfterFirst .execTag args (.exec e) := by
  refine ⟨fun he => ?_, getExecutor_tag env args e⟩
  unfold getExecutor at he
  have hn : args.length ≠ find .execTag args := by
    obtain ⟨s, t, rfl⟩ := List.append_of_mem h
    by_cases hs : Arg.execTag ∈ s
    · clear he h
      induction s with
      | nil => cases hs
      | cons a s ih =>
        simp only [List.cons_append, find]
        split
        · simp
        · rename_i ha
          have := ih ((List.mem_cons.1 hs).resolve_left (fun e => ha e.symm))
          simp only [List.length_cons]; omega
    · rw [find_append _ _ _ hs]
      simp [find]
  simp only [if_neg hn] at he
  split at he
  · rename_i x hx
    cases he
    exact after_found hx
  · cases he

/-- A tag with nothing usable after it does not compile. -/
theorem C52_ill_formed : getExecutor ⟨some 1, 2, 3⟩ [.other 1, .execTag] = none ∧
    getExecutor ⟨some 1, 2, 3⟩ [.execTag, .other 4, .exec 5] = none ∧
    getResource ⟨some 1, 2, 3⟩ [.allocTag, .exec 5] = none := by decide

/-- A task: memory as given after the tag, for the allocator and the frame. -/
theorem C52_task_tag (env : Env) (args : List Arg) (r : Nat) (h : AfterFirst .allocTag args (.alloc r)) :
    Kind.task.allocator env args = some r ∧ Kind.task.frame env args = some r :=
  ⟨(getResource_tag env args r h).2, (getResource_tag env args r h).1⟩

example : AfterFirst .allocTag mixed (.alloc 7) := ⟨[.other 1, .execTag, .exec 5], _, rfl, by decide⟩

/-- Without a tag the documentation says that the memory of a task does not come from the
thread (so that it may be spawned on another). This is so for its allocator, but the frame
comes from the thread's resource. -/
theorem C52_task_frame (env : Env) (args : List Arg) (h : .allocTag ∉ args) :
    Kind.task.allocator env args = some env.global ∧ Kind.task.frame env args = some env.res :=
  ⟨(getResource_none env args h).2, (getResource_none env args h).1⟩

example : Arg.allocTag ∉ [Arg.other 3, .execTag, .exec 2] := by decide

/-- **C52** is violated: a task ignores `executor_arg`, and its allocator is not the one of
the thread. -/
theorem C52_violated : ¬ C52 := by
  intro h
  have := ((h .task ⟨some 1, 2, 3⟩ []).2.2.2 (by decide)).1
  revert this
  decide

/-- The two sources of memory of a task without a tag differ. -/
theorem C52_violated_task : Kind.task.frame ⟨some 1, 2, 3⟩ [.other 5] ≠ Kind.task.allocator ⟨some 1, 2, 3⟩ [.other 5] := by
  decide

/-- Whether a coroutine looks for an executor among its arguments: all kinds but tasks do. -/
theorem C52_kinds (k : Kind) :
    (∀ env args e, AfterFirst .execTag args (.exec e) → k.executor env args = some (some (.exec e))) ↔ k ≠ .task := by
  constructor
  · rintro h rfl
    have := h ⟨some 1, 2, 3⟩ [.execTag, .exec 5] 5 ⟨[], [], rfl, by decide⟩
    revert this
    decide
  · intro hk env args e h
    exact (C52_partial k hk env args).1 e h

end Cobalt.Args
