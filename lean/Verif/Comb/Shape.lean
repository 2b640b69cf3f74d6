import Verif.Comb.Trace
/-! The shape of the stack: what the code leaves behind, and when undefined
behaviour is out of the question. -/
namespace Cobalt.Comb

/-- `begin_transaction` or an outside call. -/
def Tag.soft : Tag → Bool
  | .co .ext | .co (.txn _) => true
  | _ => false

theorem start_of_soft {cur : Tag} (h : cur.soft = true) : cur.isStart = false := by
  cases cur <;> simp_all [Tag.isStart, Tag.soft]; grind

/-- Code of kind `cur` leaves the stack as it was or waits for one call. -/
structure Shape (cur : Tag) (s t : St) : Prop where
  ub : t.ub = s.ub
  tags : t.tags = s.tags ∨ ∃ x, t.tags = x :: s.tags ∧ (x.isStart = true → cur.isStart = true) ∧
    (x = .co .ext → cur = .co .ext) ∧ (cur.soft = true → x = cur)
  phase : cur.soft = true → t.phase = s.phase
  going : cur.isStart = false → t.phase = s.phase ∨ (s.phase = .suspended ∧ t.phase = .resumed)

theorem Shape.refl (cur : Tag) (s : St) : Shape cur s s := ⟨rfl, Or.inl rfl, fun _ => rfl, fun _ => Or.inl rfl⟩

/-- First something that leaves the stack alone. -/
theorem Shape.after {cur : Tag} {s t u : St} (h : Shape cur t u) (h1 : t.ub = s.ub) (h2 : t.tags = s.tags)
    (h3 : cur.isStart = false → t.phase = s.phase) : Shape cur s u :=
  ⟨h.ub.trans h1, by rw [← h2]; exact h.tags, fun hc => (h.phase hc).trans (h3 (start_of_soft hc)),
    fun hc => by rw [← h3 hc]; exact h.going hc⟩

theorem soft_of_start {cur : Tag} (h : cur.isStart = true) : cur.soft = false := by
  cases cur <;> simp_all [Tag.isStart, Tag.soft]; grind

theorem Shape.endStart2 (s : St) {cur : Tag} (h : cur.isStart = true) : Shape cur s s.endStart2 := by
  unfold St.endStart2
  split <;> exact ⟨rfl, Or.inl rfl, by simp [soft_of_start h], by simp [h]⟩

theorem Shape.scanEmit (c : Cfg) (s : St) (k : Nat) (co : Cont) (ct since : Nat) :
    let r := s.scanEmit c k co ct since
    r.1.ub = s.ub ∧ r.1.phase = s.phase ∧ r.1.tags = (if r.2 then [Tag.co co] else []) ++ s.tags := by
  unfold St.scanEmit
  split <;> simp [St.tags, Frame.tag]

theorem Shape.scanIntr (c : Cfg) (s : St) (k : Nat) (co : Cont) (since : Nat) :
    let r := s.scanIntr c k co since
    r.1.ub = s.ub ∧ r.1.phase = s.phase ∧ r.1.tags = (if r.2 then [Tag.co co] else []) ++ s.tags := by
  unfold St.scanIntr
  split <;> simp [St.tags, Frame.tag]

theorem Shape.endStart (c : Cfg) (s : St) {cur : Tag} (h : cur.isStart = true) : Shape cur s (s.endStart c) := by
  have hs : cur.soft = false := by cases cur <;> simp_all [Tag.isStart, Tag.soft]; grind
  unfold St.endStart
  split
  · dsimp only
    obtain ⟨h1, h2, h3⟩ := Shape.scanEmit c s 0 .startEnd c.ct s.sent.length
    split
    · rename_i hb
      rw [if_pos hb] at h3
      exact ⟨h1, Or.inr ⟨_, h3, fun _ => h, by simp, by simp [hs]⟩, by simp [hs], by simp [h]⟩
    · rename_i hb
      rw [if_neg hb] at h3
      exact (Shape.endStart2 _ h).after h1 h3 (by simp [h])
  · exact Shape.endStart2 _ h

theorem Shape.startNext (c : Cfg) (s : St) {cur : Tag} (h : cur.isStart = true) : Shape cur s (s.startNext c) := by
  unfold St.startNext
  split
  · exact Shape.endStart c s h
  · exact ⟨rfl, Or.inr ⟨_, rfl, fun _ => h, by simp [Frame.tag], by simp [soft_of_start h]⟩, by simp [soft_of_start h],
      by simp [h]⟩

theorem Shape.afterStart (c : Cfg) (s : St) (i : Nat) (d : Bool) {cur : Tag} (h : cur.isStart = true) :
    Shape cur s (s.afterStart c i d) := by
  unfold St.afterStart
  split
  · split
    · split
      · exact ⟨rfl, Or.inl rfl, by simp [soft_of_start h], by simp [h]⟩
      · exact Shape.startNext c s h
    · dsimp only
      generalize (if s.child i = .finished then (if s.off i then d else true) else false) = b
      cases b
      · exact Shape.startNext c s h
      · exact Shape.endStart c s h
  · exact Shape.startNext c s h

theorem Shape.done (c : Cfg) (s : St) (co : Cont) (d : Bool) : Shape (.co co) s (s.done c co d) := by
  unfold St.done
  split
  · rename_i i b
    dsimp only
    have hu : (s.finish i).ub = s.ub := by unfold St.finish; dsimp only; split <;> rfl
    split
    · rename_i hb
      subst hb
      exact (Shape.afterStart c _ i d rfl).after hu (finish_tags s i) (by simp [Tag.isStart])
    · refine ⟨hu, Or.inl (finish_tags s i), by simp [Tag.soft], fun _ => ?_⟩
      unfold St.finish; dsimp only; split
      · rename_i hp; exact Or.inr ⟨hp.2, rfl⟩
      · exact Or.inl rfl
  · exact Shape.refl _ _
  · exact Shape.endStart2 _ rfl
  · exact Shape.refl _ _

theorem Shape.contEmit (c : Cfg) (s : St) (k : Nat) (co : Cont) (ct since : Nat) (d : Bool) :
    Shape (.co co) s (s.contEmit c k co ct since d) := by
  unfold St.contEmit
  dsimp only
  obtain ⟨h1, h2, h3⟩ := Shape.scanEmit c s k co ct since
  split
  · rename_i hb
    rw [if_pos hb] at h3
    exact ⟨h1, Or.inr ⟨_, h3, fun h => h, fun h => h, fun _ => rfl⟩, fun _ => h2, fun _ => Or.inl h2⟩
  · rename_i hb
    rw [if_neg hb] at h3
    exact (Shape.done c _ co d).after h1 h3 (fun _ => h2)

theorem Shape.contIntr (c : Cfg) (s : St) (k : Nat) (co : Cont) (since : Nat) (d : Bool) :
    Shape (.co co) s (s.contIntr c k co since d) := by
  unfold St.contIntr
  dsimp only
  obtain ⟨h1, h2, h3⟩ := Shape.scanIntr c s k co since
  split
  · rename_i hb
    rw [if_pos hb] at h3
    exact ⟨h1, Or.inr ⟨_, h3, fun h => h, fun h => h, fun _ => rfl⟩, fun _ => h2, fun _ => Or.inl h2⟩
  · rename_i hb
    rw [if_neg hb] at h3
    split
    · exact ⟨h1, Or.inl h3, fun _ => h2, fun _ => Or.inl h2⟩
    · exact (Shape.contEmit c _ 0 co _ _ d).after h1 h3 (fun _ => h2)

theorem Shape.complete (c : Cfg) (s : St) (i : Nat) (o : Out) (b d : Bool) :
    Shape (.co (.finish i b)) s (s.complete c i o b d) := by
  unfold St.complete
  dsimp only
  split
  · exact (Shape.done c _ _ d).after rfl rfl (fun _ => rfl)
  · split
    · exact (Shape.done c _ _ d).after rfl rfl (fun _ => rfl)
    · exact (Shape.contEmit c _ _ _ _ _ d).after rfl rfl (fun _ => rfl)
  · have h1 := raceReady_frame c { s with child := upd s.child i .running } i o
    have h2 := raceSuspended_frame c { s with child := upd s.child i .running } i o
    dsimp only at h1 h2
    cases b
    · simp only [Bool.false_eq_true, if_false]
      refine (Shape.contIntr c _ _ _ _ d).after h2.2.2.2.2.2.2.1 ?_ (fun _ => h2.2.2.1)
      simp only [St.tags, h2.2.2.2.2.2.1]
    · simp only [if_true]
      refine (Shape.contIntr c _ _ _ _ d).after h1.2.2.2.2.2.2.1 ?_ (fun _ => h1.2.2.1)
      simp only [St.tags, h1.2.2.2.2.2.1]

theorem Shape.thrown (c : Cfg) (s : St) (i : Nat) (e : Nat) (d : Bool) :
    Shape (.co (.finish i true)) s (s.thrown c i e d) := by
  unfold St.thrown
  dsimp only
  split
  · exact (Shape.done c _ _ d).after rfl rfl (fun _ => rfl)
  · exact (Shape.contEmit c _ _ _ _ _ d).after rfl rfl (fun _ => rfl)
  · refine (Shape.done c _ _ d).after ?_ ?_ (by simp [Tag.isStart])
    · split <;> split <;> rfl
    · split <;> split <;> rfl

/-- What is being started is at the bottom of the stack. -/
def Bot : List Tag → Prop
  | [] => True
  | t :: T => (t.isStart = true → T = []) ∧ Bot T

/-- Above an outside call there is nothing but outside calls and transactions. -/
def Clean : List Tag → Prop
  | [] => True
  | t :: T => (t.soft = true ∨ Tag.co .ext ∉ T) ∧ Clean T

theorem Shape.bot {cur : Tag} {s t : St} (h : Shape cur s t) (hb : Bot s.tags)
    (hc : cur.isStart = true → s.tags = []) : Bot t.tags := by
  rcases h.tags with h1 | ⟨x, h1, h2, -⟩
  · rw [h1]; exact hb
  · rw [h1]; exact ⟨fun hx => hc (h2 hx), hb⟩

theorem clean_noext {T : List Tag} (h : Tag.co .ext ∉ T) : Clean T := by
  induction T with
  | nil => trivial
  | cons t T ih =>
    simp only [List.mem_cons, not_or] at h
    exact ⟨Or.inr h.2, ih h.2⟩

theorem Shape.noext {cur : Tag} {s t : St} (h : Shape cur s t) (hc : cur ≠ .co .ext) (hn : Tag.co .ext ∉ s.tags) :
    Tag.co .ext ∉ t.tags := by
  rcases h.tags with h1 | ⟨x, h1, -, h3, -⟩
  · rw [h1]; exact hn
  · rw [h1]
    simp only [List.mem_cons, not_or]
    exact ⟨fun hx => hc (h3 hx.symm), hn⟩

theorem Shape.clean {cur : Tag} {s t : St} (h : Shape cur s t) (hc : cur.soft = true) (hn : Clean s.tags) :
    Clean t.tags := by
  rcases h.tags with h1 | ⟨x, h1, -, -, h4⟩
  · rw [h1]; exact hn
  · rw [h1, h4 hc]; exact ⟨Or.inl hc, hn⟩

/-- What the code that runs in a step is, and what is below it. -/
theorem step_shape (c : Cfg) (s : St) (e : Ev) (hu : s.ub = false) (hcan : s.can c e = true) :
    (∃ i, e = .notReady i) ∨ (s.step c e).ub = true ∨ ∃ cur s₀, Shape cur s₀ (s.step c e) ∧ s₀.ub = s.ub ∧
      (e ≠ .begin → s₀.phase = s.phase) ∧
      match e with
      | .begin => cur = .loop ∧ s₀.tags = s.tags
      | .ready i _ _ => cur = .co (.finish i true) ∧ s.tags = .ask i :: s₀.tags
      | .thrown i _ _ => cur = .co (.finish i true) ∧ (s.tags = .ask i :: s₀.tags ∨ s.tags = .start i :: s₀.tags)
      | .fin i _ => cur = .co (.finish i false) ∧ s₀.tags = s.tags
      | .txn i => cur = .co (.txn i) ∧ s₀.tags = s.tags
      | .ret _ => (∃ i, s.tags = .start i :: s₀.tags ∧ cur = .loop) ∨ (∃ co, s.tags = .co co :: s₀.tags ∧ cur = .co co)
      | .cancel _ => cur = .co .ext ∧ s₀.tags = s.tags
      | .interrupt => cur = .co .ext ∧ s₀.tags = s.tags
      | .notReady _ => False := by
  by_cases hu' : (s.step c e).ub = true
  · exact Or.inr (Or.inl hu')
  cases e with
  | notReady i => exact Or.inl ⟨i, rfl⟩
  | begin =>
    right; right
    unfold St.step at hu' ⊢
    rw [if_neg (by simp [hu, hcan])] at hu' ⊢
    dsimp only at hu' ⊢
    split
    · rename_i h0; simp [h0] at hu'
    · exact ⟨.loop, _, Shape.startNext c _ rfl, rfl, by simp, rfl, rfl⟩
  | ready i o d =>
    right; right
    have hh : s.stack.head? = some (.asking i) := by simpa [St.can] using hcan
    unfold St.step
    rw [if_neg (by simp [hu, hcan])]
    exact ⟨_, _, Shape.complete .., rfl, fun _ => rfl, rfl, tags_of_head hh⟩
  | thrown i x d =>
    right; right
    unfold St.step
    rw [if_neg (by simp [hu, hcan])]
    simp only [St.can, Bool.or_eq_true, beq_iff_eq, Bool.and_eq_true] at hcan
    refine ⟨_, _, Shape.thrown .., rfl, fun _ => rfl, rfl, ?_⟩
    rcases hcan with hh | ⟨hh, -⟩
    · exact Or.inl (tags_of_head hh)
    · exact Or.inr (tags_of_head hh)
  | fin i o =>
    right; right
    unfold St.step
    rw [if_neg (by simp [hu, hcan])]
    exact ⟨_, _, Shape.complete .., rfl, fun _ => rfl, rfl, rfl⟩
  | txn i =>
    right; right
    unfold St.step
    rw [if_neg (by simp [hu, hcan])]
    dsimp only
    split
    · exact ⟨_, _, Shape.contIntr .., rfl, fun _ => rfl, rfl, rfl⟩
    · exact ⟨_, s, Shape.refl _ s, rfl, fun _ => rfl, rfl, rfl⟩
  | cancel ct =>
    right; right
    unfold St.step
    rw [if_neg (by simp [hu, hcan])]
    exact ⟨_, _, Shape.contEmit .., rfl, fun _ => rfl, rfl, rfl⟩
  | interrupt =>
    right; right
    unfold St.step
    rw [if_neg (by simp [hu, hcan])]
    exact ⟨_, _, Shape.contIntr .., rfl, fun _ => rfl, rfl, rfl⟩
  | ret d =>
    right; right
    unfold St.step at hu' ⊢
    rw [if_neg (by simp [hu, hcan])] at hu' ⊢
    cases hs : s.stack with
    | nil => simp [St.can, hs] at hcan
    | cons f rest =>
      cases f with
      | asking k => simp [St.can, hs] at hcan
      | starting k =>
        exact ⟨.loop, { s with stack := rest }, Shape.afterStart c _ _ _ rfl, rfl, fun _ => rfl,
          Or.inl ⟨k, by simp [St.tags, hs, Frame.tag], rfl⟩⟩
      | intr k co since =>
        simp only [hs] at hu' ⊢
        split
        · rename_i h0; rw [if_pos h0] at hu'; simp at hu'
        · exact ⟨.co co, { s with stack := rest }, Shape.contIntr c _ _ _ _ _, rfl, fun _ => rfl,
            Or.inr ⟨co, by simp [St.tags, hs, Frame.tag], rfl⟩⟩
      | emit k co ct since =>
        simp only [hs] at hu' ⊢
        split
        · rename_i h0; rw [if_pos h0] at hu'; simp at hu'
        · exact ⟨.co co, { s with stack := rest }, Shape.contEmit c _ _ _ _ _ _, rfl, fun _ => rfl,
            Or.inr ⟨co, by simp [St.tags, hs, Frame.tag], rfl⟩⟩

theorem Bot.step {c : Cfg} {s : St} (hi : Inv c s s.tags) (h : Bot s.tags) (e : Ev) :
    (s.step c e).ub = true ∨ Bot (s.step c e).tags := by
  by_cases hu : s.ub = true
  · left; unfold St.step; rw [if_pos (by simp [hu])]; exact hu
  have hu : s.ub = false := by simpa using hu
  by_cases hcan : s.can c e = true
  · rcases step_shape c s e hu hcan with ⟨i, rfl⟩ | h1 | ⟨cur, s₀, h1, -, -, h3⟩
    · right
      have hh : s.stack.head? = some (.asking i) := by simpa [St.can] using hcan
      rw [tags_of_head hh] at h
      unfold St.step
      rw [if_neg (by simp [hu, hcan])]
      simp only [St.tags, List.map_cons, Frame.tag]
      exact ⟨fun _ => h.1 rfl, h.2⟩
    · exact Or.inl h1
    · right
      cases e <;> simp only at h3
      case begin =>
        have hp : s.phase = .before := by simpa [St.can] using hcan
        refine h1.bot (by rw [h3.2]; exact h) (fun _ => by rw [h3.2]; exact (hi.before hp).2.1)
      case ready i o d =>
        rw [h3.2] at h
        exact h1.bot h.2 (fun _ => h.1 rfl)
      case thrown i x d =>
        rcases h3.2 with h4 | h4 <;> rw [h4] at h <;> exact h1.bot h.2 (fun _ => h.1 rfl)
      case fin i o => exact h1.bot (by rw [h3.2]; exact h) (by rw [h3.1]; simp [Tag.isStart])
      case txn i => exact h1.bot (by rw [h3.2]; exact h) (by rw [h3.1]; simp [Tag.isStart])
      case ret d =>
        rcases h3 with ⟨i, h4, h5⟩ | ⟨co, h4, h5⟩
        · rw [h4] at h; exact h1.bot h.2 (fun _ => h.1 rfl)
        · rw [h4] at h; exact h1.bot h.2 (fun hc => h.1 (by rw [h5] at hc; exact hc))
      case cancel ct => exact h1.bot (by rw [h3.2]; exact h) (by rw [h3.1]; simp [Tag.isStart])
      case interrupt => exact h1.bot (by rw [h3.2]; exact h) (by rw [h3.1]; simp [Tag.isStart])
  · right; unfold St.step; rw [if_pos (by simp [hcan])]; exact h

/-- No child completes while the combinator is inside an outside call: completions
are posted. -/
def Posted (c : Cfg) : St → List Ev → Prop
  | _, [] => True
  | s, e :: es => (∀ i o, e = .fin i o → Tag.co .ext ∉ s.tags) ∧ Posted c (s.step c e) es

structure Safe (s : St) : Prop where
  ub : s.ub = false
  clean : Clean s.tags
  phase : Tag.co .ext ∈ s.tags → s.phase = .starting ∨ s.phase = .suspended

theorem Safe.step {c : Cfg} (hn : c.order ≠ []) {s : St} (hi : Inv c s s.tags) (h : Safe s) {e : Ev}
    (hp : ∀ i o, e = .fin i o → Tag.co .ext ∉ s.tags) : Safe (s.step c e) := by
  by_cases hcan : s.can c e = true
  · have hu := h.ub
    have hub : (s.step c e).ub = false := by
      unfold St.step
      rw [if_neg (by simp [hu, hcan])]
      cases e with
      | begin => dsimp only; rw [if_neg hn]; exact (Shape.startNext c _ (cur := .loop) rfl).ub.trans hu
      | ready i o d => exact (Shape.complete ..).ub.trans hu
      | notReady i => exact hu
      | thrown i x d => exact (Shape.thrown ..).ub.trans hu
      | fin i o => exact (Shape.complete ..).ub.trans hu
      | txn i =>
        dsimp only
        split
        · exact (Shape.contIntr ..).ub.trans hu
        · exact hu
      | cancel ct => exact (Shape.contEmit ..).ub.trans hu
      | interrupt => exact (Shape.contIntr ..).ub.trans hu
      | ret d =>
        cases hs : s.stack with
        | nil => simpa [hs] using hu
        | cons f rest =>
          cases f with
          | asking k => simpa [hs] using hu
          | starting k => exact (Shape.afterStart c _ _ _ (cur := .loop) rfl).ub.trans hu
          | intr k co since =>
            simp only [hs]
            split
            · rename_i h0
              have := h.phase (by simp [St.tags, hs, Frame.tag, h0.1])
              rw [h0.2.1] at this; simp at this
            · exact (Shape.contIntr ..).ub.trans hu
          | emit k co ct since =>
            simp only [hs]
            split
            · rename_i h0
              have := h.phase (by simp [St.tags, hs, Frame.tag, h0.1])
              rw [h0.2.1] at this; simp at this
            · exact (Shape.contEmit ..).ub.trans hu
    have hq : ∀ {cur : Tag} {s₀ : St}, Shape cur s₀ (s.step c e) → cur.soft = false → Tag.co .ext ∉ s₀.tags →
        Safe (s.step c e) := by
      intro cur s₀ h1 h2 h3
      have h4 := h1.noext (by intro h; subst h; simp [Tag.soft] at h2) h3
      exact ⟨hub, clean_noext h4, fun h => absurd h h4⟩
    have hsoft : ∀ {cur : Tag} {s₀ : St}, Shape cur s₀ (s.step c e) → cur.soft = true → Clean s₀.tags →
        (Tag.co .ext ∈ s₀.tags ∨ cur = .co .ext → s₀.phase = .starting ∨ s₀.phase = .suspended) →
        Safe (s.step c e) := by
      intro cur s₀ h1 h2 h3 h4
      refine ⟨hub, h1.clean h2 h3, fun h => ?_⟩
      rw [h1.phase h2]
      apply h4
      rcases h1.tags with h5 | ⟨x, h5, -, -, h6⟩
      · rw [h5] at h; exact Or.inl h
      · rw [h5, h6 h2] at h
        rcases List.mem_cons.1 h with h7 | h7
        · exact Or.inr h7.symm
        · exact Or.inl h7
    have hcl := h.clean
    rcases step_shape c s e hu hcan with ⟨i, rfl⟩ | h1 | ⟨cur, s₀, h1, -, h2, h3⟩
    · have hh : s.stack.head? = some (.asking i) := by simpa [St.can] using hcan
      rw [tags_of_head hh] at hcl
      have hno : Tag.co .ext ∉ (s.step c (.notReady i)).tags := by
        unfold St.step
        rw [if_neg (by simp [hu, hcan])]
        rcases hcl.1 with h1 | h1
        · simp [Frame.tag, Tag.soft] at h1
        · simpa [St.tags, Frame.tag] using h1
      exact ⟨hub, clean_noext hno, fun h => absurd h hno⟩
    · rw [hub] at h1; simp at h1
    · cases e <;> simp only at h3
      case begin =>
        have hp : s.phase = .before := by simpa [St.can] using hcan
        exact hq h1 (by rw [h3.1]; rfl) (by rw [h3.2, (hi.before hp).2.1]; simp)
      case ready i o d =>
        rw [h3.2] at hcl
        exact hq h1 (by rw [h3.1]; rfl) (by simpa [Tag.soft] using hcl.1)
      case thrown i x d =>
        rcases h3.2 with h4 | h4 <;> rw [h4] at hcl <;>
          exact hq h1 (by rw [h3.1]; rfl) (by simpa [Tag.soft] using hcl.1)
      case fin i o => exact hq h1 (by rw [h3.1]; rfl) (by rw [h3.2]; exact hp i o rfl)
      case txn i =>
        refine hsoft h1 (by rw [h3.1]; rfl) (by rw [h3.2]; exact hcl) ?_
        rw [h3.1, h3.2, h2 (by simp)]
        intro h5
        exact h.phase (by simpa using h5)
      case ret d =>
        rcases h3 with ⟨i, h4, h5⟩ | ⟨co, h4, h5⟩
        · rw [h4] at hcl
          exact hq h1 (by rw [h5]; rfl) (by simpa [Tag.soft] using hcl.1)
        · have h6 := h.phase
          rw [h4] at hcl h6
          by_cases hso : cur.soft = true
          · refine hsoft h1 hso hcl.2 ?_
            rw [h2 (by simp), h5]
            intro h7
            exact h6 (by rw [List.mem_cons]; exact h7.symm.imp (fun h => h.symm) id)
          · have hso : cur.soft = false := by simpa using hso
            refine hq h1 hso ?_
            rcases hcl.1 with h7 | h7
            · rw [← h5, hso] at h7; simp at h7
            · exact h7
      case cancel ct =>
        refine hsoft h1 (by rw [h3.1]; rfl) (by rw [h3.2]; exact hcl) (fun _ => ?_)
        rw [h2 (by simp)]
        right; simpa [St.can] using hcan
      case interrupt =>
        refine hsoft h1 (by rw [h3.1]; rfl) (by rw [h3.2]; exact hcl) (fun _ => ?_)
        rw [h2 (by simp)]
        simpa [St.can] using hcan
  · unfold St.step; rw [if_pos (by simp [hcan])]; exact h

theorem Safe.steps {c : Cfg} (hc : c.Ok) (hn : c.order ≠ []) : ∀ (es : List Ev) {s : St}, Inv c s s.tags → Safe s →
    Posted c s es → Safe (s.steps c es)
  | [], _, _, h, _ => h
  | e :: es, s, hi, h, hp => by
    have h1 := h.step hn hi hp.1
    rcases hi.step hc e with h2 | h2
    · rw [h1.ub] at h2; simp at h2
    · exact Safe.steps hc hn es h2 h1 hp.2

/-- Without outside calls completions are trivially posted. -/
theorem posted_of_alone {c : Cfg} : ∀ (es : List Ev) {s : St}, Tag.co .ext ∉ s.tags → (∀ e ∈ es, e ≠ .interrupt ∧
    ∀ ct, e ≠ .cancel ct) → Posted c s es
  | [], _, _, _ => trivial
  | e :: es, s, h, ha => by
    refine ⟨fun _ _ _ => h, posted_of_alone es ?_ (fun x hx => ha x (List.mem_cons_of_mem _ hx))⟩
    have h0 := ha e (by simp)
    by_cases hcu : s.ub = true ∨ s.can c e = false
    · unfold St.step; rw [if_pos (by rcases hcu with h | h <;> simp [h])]; exact h
    have hu : s.ub = false := by
      cases hx : s.ub
      · rfl
      · exact absurd (Or.inl hx) hcu
    have hcan : s.can c e = true := by
      cases hx : s.can c e
      · exact absurd (Or.inr hx) hcu
      · rfl
    by_cases hb : ∃ i, e = .notReady i
    · obtain ⟨i, rfl⟩ := hb
      unfold St.step
      rw [if_neg (by simp [hu, hcan])]
      have hh : s.stack.head? = some (.asking i) := by simpa [St.can] using hcan
      rw [tags_of_head hh] at h
      simpa [St.tags, Frame.tag] using h
    · by_cases hx : (s.step c e).ub = true
      · unfold St.step at hx ⊢
        rw [if_neg (by simp [hu, hcan])] at hx ⊢
        cases e with
        | begin =>
          dsimp only at hx ⊢
          split
          · exact h
          · exact (Shape.startNext c _ (cur := .loop) rfl).noext (by simp) h
        | ready i o d => rw [(Shape.complete ..).ub] at hx; rw [hu] at hx; simp at hx
        | notReady i => simp [hu] at hx
        | thrown i x d => rw [(Shape.thrown ..).ub] at hx; rw [hu] at hx; simp at hx
        | fin i o => rw [(Shape.complete ..).ub] at hx; rw [hu] at hx; simp at hx
        | txn i =>
          dsimp only at hx ⊢
          split at hx
          · rw [(Shape.contIntr ..).ub] at hx; rw [hu] at hx; simp at hx
          · rw [hu] at hx; simp at hx
        | cancel ct => exact absurd rfl (h0.2 ct)
        | interrupt => exact absurd rfl h0.1
        | ret d =>
          cases hs : s.stack with
          | nil => simp only [hs]; exact h
          | cons f rest =>
            have h' := h
            simp only [St.tags, hs, List.map_cons, List.mem_cons, not_or] at h'
            cases f with
            | asking k => simp only [hs]; exact h
            | starting k => exact (Shape.afterStart c { s with stack := rest } _ _ (cur := .loop) rfl).noext (by simp) h'.2
            | intr k co since =>
              simp only [hs]
              split
              · simpa [St.tags, hs] using h
              · exact (Shape.contIntr c { s with stack := rest } ..).noext (Ne.symm h'.1) h'.2
            | emit k co ct since =>
              simp only [hs]
              split
              · simpa [St.tags, hs] using h
              · exact (Shape.contEmit c { s with stack := rest } ..).noext (Ne.symm h'.1) h'.2
      · rcases step_shape c s e hu hcan with h1 | h1 | ⟨cur, s₀, h1, -, -, h3⟩
        · exact absurd h1 hb
        · exact absurd h1 hx
        · cases e <;> simp only at h3
          case begin => exact h1.noext (by rw [h3.1]; simp) (by rw [h3.2]; exact h)
          case ready i o d =>
            rw [h3.2] at h
            exact h1.noext (by rw [h3.1]; simp) (fun hm => h (List.mem_cons_of_mem _ hm))
          case thrown i x d =>
            rcases h3.2 with h4 | h4 <;> rw [h4] at h <;>
              exact h1.noext (by rw [h3.1]; simp) (fun hm => h (List.mem_cons_of_mem _ hm))
          case fin i o => exact h1.noext (by rw [h3.1]; simp) (by rw [h3.2]; exact h)
          case txn i => exact h1.noext (by rw [h3.1]; simp) (by rw [h3.2]; exact h)
          case ret d =>
            rcases h3 with ⟨i, h4, h5⟩ | ⟨co, h4, h5⟩
            · rw [h4] at h
              exact h1.noext (by rw [h5]; simp) (fun hm => h (List.mem_cons_of_mem _ hm))
            · rw [h4] at h
              refine h1.noext (by rw [h5]; intro hx; exact h (by simp [hx])) (fun hm => h (List.mem_cons_of_mem _ hm))
          case cancel ct => exact absurd rfl (h0.2 ct)
          case interrupt => exact absurd rfl h0.1

end Cobalt.Comb
