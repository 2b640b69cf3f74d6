import Verif.Comb.Inv
/-! The structural invariant holds throughout. -/
namespace Cobalt.Comb

theorem raceSuspended_frame (c : Cfg) (s : St) (i : Nat) (o : Out) :
    let t := s.raceSuspended c i o
    t.child = s.child ∧ t.uses = s.uses ∧ t.phase = s.phase ∧ t.todo = s.todo ∧ t.resumes = s.resumes ∧
    t.stack = s.stack ∧ t.ub = s.ub ∧ t.sig = s.sig ∧ t.working = s.working ∧ t.sent = s.sent ∧ t.intd = s.intd ∧
    t.off = s.off ∧ t.res = s.res := by
  unfold St.raceSuspended
  dsimp only
  cases o <;> by_cases h1 : c.void i = true <;> by_cases h2 : s.index = none <;> simp only [h1, h2, if_true, if_false] <;>
    grind

theorem raceReady_frame (c : Cfg) (s : St) (i : Nat) (o : Out) :
    let t := s.raceReady c i o
    t.child = s.child ∧ t.uses = s.uses ∧ t.phase = s.phase ∧ t.todo = s.todo ∧ t.resumes = s.resumes ∧
    t.stack = s.stack ∧ t.ub = s.ub ∧ t.sig = s.sig ∧ t.working = s.working ∧ t.sent = s.sent ∧ t.intd = s.intd ∧
    t.off = s.off ∧ t.res = s.res := by
  unfold St.raceReady
  dsimp only
  cases o <;> by_cases h2 : s.index = none <;> simp only [h2, if_true, if_false] <;>
    (try split) <;> (try split) <;> simp

theorem Inv.complete {c : Cfg} {s : St} {i : Nat} {b : Bool} {o : Out} {d : Bool}
    (h : Inv c { s with child := upd s.child i .running } (.co (.finish i b) :: s.tags)) :
    Inv c (s.complete c i o b d) (s.complete c i o b d).tags := by
  unfold St.complete
  dsimp only
  split
  · refine Inv.done ?_ d
    exact h.congr rfl rfl rfl rfl rfl
  · split
    · refine Inv.done ?_ d
      exact h.congr rfl rfl rfl rfl rfl
    · refine Inv.contEmit ?_ _ _ _ d
      exact h.congr rfl rfl rfl rfl rfl
  · have h1 := raceReady_frame c { s with child := upd s.child i .running } i o
    have h2 := raceSuspended_frame c { s with child := upd s.child i .running } i o
    dsimp only at h1 h2
    obtain ⟨a1, a2, a3, a4, a5, a6, -⟩ := h1
    obtain ⟨b1, b2, b3, b4, b5, b6, -⟩ := h2
    cases b
    · rw [if_neg (by simp)]
      refine Inv.contIntr ?_ _ _ d
      have : St.tags { St.raceSuspended c { s with child := upd s.child i .running } i o with
        sig := upd (St.raceSuspended c { s with child := upd s.child i .running } i o).sig i false } = s.tags := by
        simp only [St.tags, b6]
      rw [this]
      exact h.congr b1 b2 b3 b4 b5
    · rw [if_pos rfl]
      refine Inv.contIntr ?_ _ _ d
      have : St.tags { St.raceReady c { s with child := upd s.child i .running } i o with
        sig := upd (St.raceReady c { s with child := upd s.child i .running } i o).sig i false } = s.tags := by
        simp only [St.tags, a6]
      rw [this]
      exact h.congr a1 a2 a3 a4 a5

theorem Inv.thrown {c : Cfg} {s : St} {i : Nat} {e : Nat} {d : Bool}
    (h : Inv c { s with child := upd s.child i .running } (.co (.finish i true) :: s.tags)) :
    Inv c (s.thrown c i e d) (s.thrown c i e d).tags := by
  unfold St.thrown
  dsimp only
  split
  · refine Inv.done ?_ d
    exact h.congr rfl rfl rfl rfl rfl
  · refine Inv.contEmit ?_ _ _ _ d
    exact h.congr rfl rfl rfl rfl rfl
  · refine Inv.done ?_ d
    split <;> split <;> exact h.congr rfl rfl rfl rfl rfl

theorem tags_of_head {s : St} {f : Frame} (h : s.stack.head? = some f) : s.tags = f.tag :: s.stack.tail.map Frame.tag := by
  unfold St.tags
  cases hs : s.stack with
  | nil => simp [hs] at h
  | cons x xs => rw [hs] at h; simp only [List.head?_cons, Option.some.injEq] at h; subst h; rfl

theorem Inv.step {c : Cfg} (hc : c.Ok) {s : St} (h : Inv c s s.tags) (e : Ev) :
    (s.step c e).ub = true ∨ Inv c (s.step c e) (s.step c e).tags := by
  unfold St.step
  by_cases hcan : s.ub || !s.can c e
  · rw [if_pos hcan]; exact Or.inr h
  rw [if_neg hcan]
  have hcan : s.can c e = true := by
    cases h : s.can c e <;> simp [h] at hcan ⊢
  cases e with
  | begin =>
    have hp : s.phase = .before := by simpa [St.can] using hcan
    dsimp only
    by_cases ho : c.order = []
    · rw [if_pos ho]; exact Or.inl rfl
    rw [if_neg ho]
    refine Or.inr (Inv.startNext ?_)
    obtain ⟨h1, h2, h3, h4⟩ := h.before hp
    have ht : St.tags { s with phase := .starting, todo := c.order } = [] := h2
    rw [ht]
    rw [h2] at h
    obtain ⟨l, hl1, hl2, hl3⟩ := h.uses
    constructor
    · simp [Tag.isStart]
    · simp
    · intro i; simp [h4]
    · intro i; simp [h4]
    · intro i hi; simp at hi
    · exact ⟨l, hl1, hl2, hl3⟩
    · exact hc.nodup
    · intro i hi; exact ⟨h4 i, hi⟩
    · intro i hi; exact absurd (h4 i) hi
    · intro _ _ i hi _; exact hi
    · intro _ hp; exact absurd rfl hp
    · intro hp; simp at hp
    · intro hp; simp at hp
    · intro hp; simp [St.over] at hp
    · have := h.resumes; rw [hp] at this; exact this
    · intro hs; simp at hs
  | ready i o d =>
    right
    have hh : s.stack.head? = some (.asking i) := by simpa [St.can] using hcan
    have ht := tags_of_head hh
    refine Inv.complete ?_
    refine Inv.toRunning (Or.inr (Or.inl ⟨rfl, ?_⟩))
    rw [ht] at h
    exact h.congr rfl rfl rfl rfl rfl
  | notReady i =>
    right
    have hh : s.stack.head? = some (.asking i) := by simpa [St.can] using hcan
    have ht := tags_of_head hh
    rw [ht] at h
    have ha := (h.asking i).2 (by simp [Frame.tag])
    have hone : Tag.ask i ∉ s.stack.tail.map Frame.tag := by
      intro hm
      have h1 := h.starts
      rw [List.countP_cons] at h1
      have h2 := List.countP_pos_iff.2 ⟨_, hm, show Tag.isStart (Tag.ask i) = true from rfl⟩
      simp only [Frame.tag, Tag.isStart, if_true] at h1
      split at h1 <;> omega
    have hte : St.tags { s with
      child := upd s.child i .waiting, sig := upd s.sig i true, stack := .starting i :: s.stack.tail } =
      .start i :: s.stack.tail.map Frame.tag := rfl
    rw [hte]
    obtain ⟨l, hl1, hl2, hl3⟩ := h.uses
    have hpp := h.phase_of rfl
    constructor
    · have := h.starts
      simpa [List.countP_cons, Tag.isStart, Frame.tag] using this
    · exact h.fins
    · intro j
      have := h.running j
      simp only [Frame.tag, fin_ask] at this
      simp only [fin_start, upd_apply]
      grind
    · intro j
      have := h.asking j
      simp only [Frame.tag, List.mem_cons, Tag.ask.injEq, reduceCtorEq, false_or, upd_apply] at this ⊢
      grind
    · intro j hj
      simp only [List.mem_cons, Tag.start.injEq] at hj
      simp only [upd_apply]
      rcases hj with rfl | hj
      · simp
      · have := h.started j (List.mem_cons_of_mem _ hj)
        grind
    · refine ⟨l, hl1, ?_, hl3⟩
      intro j
      rw [hl2]; simp only [upd_apply]
      by_cases hj : j = i
      · simp [hj, ha, CS.active]
      · simp [hj]
    · exact h.todoNodup
    · intro j hj
      have := h.todo j hj
      simp only [upd_apply]; grind
    · intro j hj
      simp only [upd_apply] at hj
      by_cases hji : j = i
      · subst hji; exact h.known j (by simp [ha])
      · rw [if_neg hji] at hj; exact h.known j hj
    · intro hk hp j hj hc
      simp only [upd_apply] at hc
      exact h.all hk hp j hj (by grind)
    · exact h.todoEnd
    · intro hp; have hp : s.phase = .before := hp; simp [hpp] at hp
    · exact h.susp
    · exact h.over
    · exact h.resumes
    · intro hse
      simp only [List.mem_cons, reduceCtorEq, false_or] at hse
      exact h.startEnd (List.mem_cons_of_mem _ hse)
  | thrown i e d =>
    right
    refine Inv.thrown ?_
    simp only [St.can, Bool.or_eq_true, beq_iff_eq, Bool.and_eq_true] at hcan
    rcases hcan with hh | ⟨hh, hw⟩
    · have ht := tags_of_head hh
      rw [ht] at h
      exact Inv.toRunning (Or.inr (Or.inl ⟨rfl, h.congr rfl rfl rfl rfl rfl⟩))
    · have ht := tags_of_head hh
      rw [ht] at h
      exact Inv.toRunning (Or.inr (Or.inr ⟨rfl, hw, h.congr rfl rfl rfl rfl rfl⟩))
  | fin i o =>
    right
    simp only [St.can, Bool.and_eq_true, beq_iff_eq] at hcan
    exact Inv.complete (Inv.toRunning (Or.inl ⟨rfl, hcan.1, h⟩))
  | txn i =>
    right
    simp only [St.can, Bool.and_eq_true, beq_iff_eq] at hcan
    dsimp only
    split
    · refine Inv.contIntr ?_ _ _ _
      have hp : s.phase ≠ .before := by
        intro hp
        have := (h.before hp).2.2.2 i
        rw [this] at hcan
        simp at hcan
      exact (h.push hp (Or.inr ⟨i, rfl⟩)).congr rfl rfl rfl rfl rfl
    · exact h
  | ret d =>
    dsimp only
    split
    · exact Or.inr h
    · exact Or.inr h
    · rename_i k rest hs
      right
      refine Inv.afterStart ?_ _ _
      have ht : s.tags = .start k :: rest.map Frame.tag := by simp [St.tags, hs, Frame.tag]
      rw [ht] at h
      have hpp := h.phase_of rfl
      show Inv c _ (.loop :: rest.map Frame.tag)
      cases h
      simp only [List.countP_cons, fin_start, Tag.isStart, List.mem_cons, reduceCtorEq, false_or,
        Tag.start.injEq] at *
      constructor <;> (try simp only [List.countP_cons, fin_loop, Tag.isStart, List.mem_cons, reduceCtorEq,
        false_or]) <;> first | assumption | grind
    · rename_i k co since rest hs
      split
      · exact Or.inl rfl
      · right
        refine Inv.contIntr ?_ _ _ _
        have ht : s.tags = .co co :: rest.map Frame.tag := by simp [St.tags, hs, Frame.tag]
        rw [ht] at h
        exact h.congr rfl rfl rfl rfl rfl
    · rename_i k co ct since rest hs
      split
      · exact Or.inl rfl
      · right
        refine Inv.contEmit ?_ _ _ _ _
        have ht : s.tags = .co co :: rest.map Frame.tag := by simp [St.tags, hs, Frame.tag]
        rw [ht] at h
        exact h.congr rfl rfl rfl rfl rfl
  | cancel ct =>
    right
    have hp : s.phase = .suspended := by simpa [St.can] using hcan
    refine Inv.contEmit (h.push ?_ (Or.inl rfl)) _ _ _ _
    simp [hp]
  | interrupt =>
    right
    have hp : s.phase = .starting ∨ s.phase = .suspended := by simpa [St.can] using hcan
    refine Inv.contIntr (h.push ?_ (Or.inl rfl)) _ _ _
    rcases hp with hp | hp <;> simp [hp]

theorem Inv.steps {c : Cfg} (hc : c.Ok) : ∀ (es : List Ev) {s : St}, s.ub = true ∨ Inv c s s.tags →
    (s.steps c es).ub = true ∨ Inv c (s.steps c es) (s.steps c es).tags
  | [], _, h => h
  | e :: es, s, h => by
    refine Inv.steps hc es (s := s.step c e) ?_
    rcases h with h | h
    · left; unfold St.step; rw [if_pos (by simp [h])]; exact h
    · exact h.step hc e

theorem Inv.run {c : Cfg} (hc : c.Ok) (es : List Ev) :
    (St.run c es).ub = true ∨ Inv c (St.run c es) (St.run c es).tags :=
  Inv.steps hc es (Or.inr (Inv.init c))

end Cobalt.Comb
