import Verif.Xthr.Lemmas
/-!
# Properties of spawning onto another thread
-/
namespace Cobalt.Xthr

/-- **C73**: whatever the spawning thread does before, while the task runs and afterwards, and however
the task and its handler allocate, no resource of the spawning thread is used by both threads
without synchronisation. -/
def C73 : Prop := ∀ (c : Cfg) (pre mid post : List Res), ¬ Race (c.progA pre mid post) c.progB

/-- **C73**, exactly: there is a race if and only if the frame of the task or what its completion
needs is allocated from the pool of the spawning thread, and this thread uses its pool
after the spawn and before it learns about the completion, if it does. -/
theorem C73_exact (c : Cfg) (pre mid post : List Res) :
    Race (c.progA pre mid post) c.progB ↔
      (c.frame = .pool ∨ c.alloc = .pool) ∧
      (.pool ∈ mid ∨ (c.ack = .never ∧ .pool ∈ post)) := by
  have hp : ∀ x : Res, Res.pool = x ↔ x = .pool := fun x => eq_comm
  obtain ⟨f, al, k⟩ := c
  cases k with
  | handler =>
    have := race_back (Cfg.before ⟨f, al, .handler⟩ pre) mid ([al, al] ++ post) [f, f, al, al] []
      (by simp)
    simp only [Cfg.progA, Cfg.progB, before_eq, Cfg.complete, Cfg.task]
    simp only [List.map_append, List.map_cons, List.map_nil] at this
    rw [this]
    simp [hp, and_comm, or_comm]
  | future =>
    have := race_back (Cfg.before ⟨f, al, .future⟩ pre) mid post [f, f, al, al, al, al] []
      (by simp)
    simp only [Cfg.progA, Cfg.progB, before_eq, Cfg.complete, Cfg.task]
    simp only [List.map_cons, List.map_nil, List.cons_append, List.nil_append] at this ⊢
    rw [this]
    simp [hp, and_comm, or_comm]
  | never =>
    have := race_never (Cfg.before ⟨f, al, .never⟩ pre) (mid ++ post) [f, f, al, al, al, al]
    simp only [Cfg.progA, Cfg.progB, before_eq, Cfg.complete, Cfg.task]
    simp only [List.map_append, List.map_cons, List.map_nil, List.cons_append,
      List.nil_append] at this ⊢
    rw [this]
    simp [hp, and_comm, or_comm]

/-- **C73** holds if the task and the handler have resources of their own, or if the spawning
thread does nothing until it learns about the completion. -/
theorem C73_partial (c : Cfg) (pre mid post : List Res)
    (h : (c.frame = .safe ∧ c.alloc = .safe) ∨ (c.ack ≠ .never ∧ .pool ∉ mid)) :
    ¬ Race (c.progA pre mid post) c.progB := by
  rw [C73_exact]
  rintro ⟨h1, h2⟩
  rcases h with ⟨hf, ha⟩ | ⟨hk, hm⟩
  · rw [hf, ha] at h1; rcases h1 with h1 | h1 <;> cases h1
  · rcases h2 with h2 | ⟨h2, _⟩
    · exact hm h2
    · exact hk h2

/-- `main` which waits for a future. -/
example : ¬ Race (Cfg.progA { ack := .future } [.pool] [] [.pool, .pool])
    (Cfg.progB { ack := .future }) :=
  C73_partial _ _ _ _ (.inr ⟨by decide, by decide⟩)

/-- **C73 is violated**: while the task runs, some coroutine of the spawning thread is called. -/
theorem C73_violated : ¬ C73 := fun h =>
  h {} [] [.pool] [] ((C73_exact ..).mpr ⟨.inl rfl, .inl (by simp)⟩)

/-- A handler with an allocator of its own does not help: the frame is freed by the other
thread. -/
theorem C73_frame_violated (pre mid post : List Res) (hm : .pool ∈ mid) (k : Ack) :
    Race (Cfg.progA { frame := .pool, alloc := .safe, ack := k } pre mid post)
      (Cfg.progB { frame := .pool, alloc := .safe, ack := k }) :=
  (C73_exact ..).mpr ⟨.inl rfl, .inl hm⟩

/-- Neither does a task with a resource of its own, for a handler without allocator. -/
theorem C73_handler_violated (pre mid post : List Res) (hm : .pool ∈ mid) (k : Ack) :
    Race (Cfg.progA { frame := .safe, alloc := .pool, ack := k } pre mid post)
      (Cfg.progB { frame := .safe, alloc := .pool, ack := k }) :=
  (C73_exact ..).mpr ⟨.inr rfl, .inl hm⟩

example : Race (Cfg.progA { alloc := .safe } [] [.pool] []) (Cfg.progB { alloc := .safe }) :=
  C73_frame_violated [] [.pool] [] (by simp) .handler
example : Race (Cfg.progA { frame := .safe } [] [.pool] []) (Cfg.progB { frame := .safe }) :=
  C73_handler_violated [] [.pool] [] (by simp) .handler

end Cobalt.Xthr
