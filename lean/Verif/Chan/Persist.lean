import Verif.Chan.Fifo5
/-! Helper: what a step never undoes, and how the buffer changes. -/
namespace Cobalt.Chan

/-- Facts about one step (or part of one). -/
structure Rel (s s' : St) : Prop where
  cap : s'.cap = s.cap
  grow : ∃ m, s'.log = s.log ++ m
  ass : s.asserted = true → s'.asserted = true
  closed : s.closed = true → s'.closed = true
  dir : ∀ i w, (s.R i).direct = some w → (s'.R i).direct = some w
  canR : ∀ i, (s.R i).cancelled = true → (s'.R i).cancelled = true
  cloW : ∀ i, (s.W i).closedF = true → (s'.W i).closedF = true
  /-- the buffer changes only when an operation succeeds -/
  same : delivered s'.log = delivered s.log → accepted s'.log = accepted s.log → s'.buf = s.buf
  /-- without a successful read the buffer only grows, unless an assertion fails -/
  pre : delivered s'.log = delivered s.log → s'.asserted = false → s.buf <+: s'.buf
  resW : ∀ i, (s.W i).closedF = true → ∀ res, Obs.doneW i res ∈ s'.log →
    Obs.doneW i res ∈ s.log ∨ res = .brokenPipe
  resR : ∀ i, (s.R i).cancelled = true → ∀ res, Obs.doneR i res ∈ s'.log →
    Obs.doneR i res ∈ s.log ∨ res = .brokenPipe ∨ res = .aborted

theorem Rel.refl (s : St) : Rel s s := by
  constructor
  case grow => exact ⟨[], by simp⟩
  case pre => intro _ _; exact List.prefix_refl _
  all_goals grind

theorem delivered_mono {a b : List Obs} {x : List Obs} (h : b = a ++ x) :
    delivered b = delivered a ++ delivered x := by rw [h, delivered_append]
theorem accepted_mono {a b : List Obs} {x : List Obs} (h : b = a ++ x) :
    accepted b = accepted a ++ accepted x := by rw [h, accepted_append]

theorem Rel.trans {s t u : St} (a : Rel s t) (b : Rel t u) : Rel s u := by
  obtain ⟨m, hm⟩ := a.grow
  obtain ⟨n, hn⟩ := b.grow
  have d1 := delivered_mono hm
  have d2 := delivered_mono hn
  have a1 := accepted_mono hm
  have a2 := accepted_mono hn
  have kd : delivered u.log = delivered s.log → delivered t.log = delivered s.log ∧ delivered u.log = delivered t.log := by
    intro h
    rw [h, d1] at d2
    have : delivered m = [] := by
      have := congrArg List.length d2
      simp at this
      exact this.1
    rw [d1, this]; simp [h]
  have ka : accepted u.log = accepted s.log → accepted t.log = accepted s.log ∧ accepted u.log = accepted t.log := by
    intro h
    rw [h, a1] at a2
    have : accepted m = [] := by
      have := congrArg List.length a2
      simp at this
      exact this.1
    rw [a1, this]; simp [h]
  constructor
  · exact b.cap.trans a.cap
  · exact ⟨m ++ n, by rw [hn, hm, List.append_assoc]⟩
  · exact fun h => b.ass (a.ass h)
  · exact fun h => b.closed (a.closed h)
  · exact fun i w h => b.dir i w (a.dir i w h)
  · exact fun i h => b.canR i (a.canR i h)
  · exact fun i h => b.cloW i (a.cloW i h)
  · intro h1 h2
    rw [b.same (kd h1).2 (ka h2).2, a.same (kd h1).1 (ka h2).1]
  · intro h1 h2
    have h3 : t.asserted = false := by
      cases h : t.asserted with
      | false => rfl
      | true => rw [b.ass h] at h2; exact h2
    exact (a.pre (kd h1).1 h3).trans (b.pre (kd h1).2 h2)
  · intro i hi res hr
    rcases b.resW i (a.cloW i hi) res hr with h | h
    · exact a.resW i hi res h
    · exact Or.inr h
  · intro i hi res hr
    rcases b.resR i (a.canR i hi) res hr with h | h
    · exact a.resR i hi res h
    · exact Or.inr h

/-- Nothing is logged, the buffer stays. -/
theorem Rel.quiet {s s' : St} (hcap : s'.cap = s.cap) (hl : s'.log = s.log) (hb : s'.buf = s.buf)
    (ass : s.asserted = true → s'.asserted = true)
    (closed : s.closed = true → s'.closed = true)
    (dir : ∀ i w, (s.R i).direct = some w → (s'.R i).direct = some w)
    (canR : ∀ i, (s.R i).cancelled = true → (s'.R i).cancelled = true)
    (cloW : ∀ i, (s.W i).closedF = true → (s'.W i).closedF = true) : Rel s s' := by
  constructor
  · exact hcap
  · exact ⟨[], by simp [hl]⟩
  · exact ass
  · exact closed
  · exact dir
  · exact canR
  · exact cloW
  · intro _ _; exact hb
  · intro _ _; rw [hb]; exact List.prefix_refl _
  · intro i _ res h; rw [hl] at h; exact Or.inl h
  · intro i _ res h; rw [hl] at h; exact Or.inl h

theorem Rel.wakeWriter (s : St) : Rel s s.wakeWriter := by
  unfold St.wakeWriter
  split
  · exact Rel.refl s
  · dsimp only
    split
    · split
      · apply Rel.quiet <;> first | rfl | (simp only; grind)
      · apply Rel.quiet <;> first | rfl | (simp only; grind)
    · apply Rel.quiet <;> first | rfl | (simp only; grind)

theorem Rel.wakeReader (s : St) : Rel s s.wakeReader := by
  unfold St.wakeReader
  split
  · exact Rel.refl s
  · dsimp only
    split
    · split
      · apply Rel.quiet <;> first | rfl | (simp only; grind)
      · apply Rel.quiet <;> first | rfl | (simp only; grind)
    · apply Rel.quiet <;> first | rfl | (simp only; grind)

theorem ne_snoc {α : Type} (l : List α) (x : α) : l ++ [x] ≠ l := by
  intro h; have := congrArg List.length h; simp at this

/-- A read fails. -/
theorem Rel.failR (s : St) (i : Nat) (res : RRes) (hr : res = .brokenPipe ∨ res = .aborted) :
    Rel s (s.endR i res) := by
  constructor
  case cap => rfl
  case grow => exact ⟨_, rfl⟩
  case pre => intro _ _; exact List.prefix_refl _
  all_goals (simp only [St.endR]; grind)

/-- A read succeeds, `bs` is left in the buffer. -/
theorem Rel.valR (s : St) (i w : Nat) (hc : (s.R i).cancelled = false) (bs : List Nat) :
    Rel s { s.endR i (.value w) with buf := bs } := by
  constructor
  case cap => rfl
  case grow => exact ⟨_, rfl⟩
  case pre => intro h _; simp only [St.endR, delivered_value] at h; exact absurd h (ne_snoc _ _)
  case same => intro h _; simp only [St.endR, delivered_value] at h; exact absurd h (ne_snoc _ _)
  all_goals (simp only [St.endR]; grind)

/-- A write fails. -/
theorem Rel.failW (s : St) (i : Nat) (res : WRes) (_hr : res ≠ .ok)
    (hk : (s.W i).closedF = true → res = .brokenPipe) :
    Rel s (s.endW i res) := by
  constructor
  case cap => rfl
  case grow => exact ⟨_, rfl⟩
  case pre => intro _ _; exact List.prefix_refl _
  all_goals (simp only [St.endW]; grind)

/-- A write succeeds. -/
theorem Rel.okW (s : St) (i : Nat) (hk : (s.W i).closedF = false) (bs : List Nat) (a : Bool)
    (ha : s.asserted = true → a = true)
    (hb : a = false → s.buf <+: bs) :
    Rel s { s.endW i .ok with buf := bs, asserted := a } := by
  constructor
  case cap => rfl
  case grow => exact ⟨_, rfl⟩
  case pre => intro _ h; exact hb h
  case same => intro _ h; simp only [St.endW, accepted_ok] at h; exact absurd h (ne_snoc _ _)
  all_goals (simp only [St.endW]; grind)

theorem Rel.resumeR (s : St) (i : Nat) : Rel s (s.resumeR i) := by
  unfold St.resumeR
  split
  · exact Rel.failR s i _ (Or.inl rfl)
  · split
    · exact Rel.failR s i _ (Or.inr rfl)
    · rename_i hc
      simp only [Bool.not_eq_true] at hc
      split
      · apply Rel.quiet <;> first | rfl | (simp only; grind)
      · exact (Rel.valR s i _ hc s.buf).trans (Rel.wakeWriter _)
      · exact (Rel.valR s i _ hc _).trans (Rel.wakeWriter _)
      · exact (Rel.valR s i _ hc _).trans (Rel.wakeWriter _)

theorem Rel.resumeW (s : St) (i : Nat) : Rel s (s.resumeW i) := by
  unfold St.resumeW
  split
  · exact Rel.failW s i _ (by simp) (by simp)
  · rename_i hk
    simp only [Bool.not_eq_true] at hk
    split
    · exact Rel.failW s i _ (by simp) (by simp [hk])
    · split
      · exact (Rel.okW s i hk s.buf s.asserted id (fun _ => List.prefix_refl _)).trans (Rel.wakeReader _)
      · refine (Rel.okW s i hk _ _ ?_ ?_).trans (Rel.wakeReader _)
        · intro h; simp [h]
        · intro h
          unfold pushBack
          split
          · exact List.prefix_refl _
          · split
            · rename_i h1; simp [h1] at h
            · exact List.prefix_append _ _

theorem Rel.int (s : St) (x : Tok) : Rel s (s.int x) := by
  cases x with
  | r i =>
    simp only [St.int, intR_eq]
    split
    · exact Rel.refl s
    · have h0 : Rel s { s with R := upd s.R i { s.R i with cancelled := true } } := by
        apply Rel.quiet <;> first | rfl | (simp only; grind)
      split
      · exact h0.trans (Rel.failR _ i _ (by split <;> simp))
      · exact h0
  | w i =>
    simp only [St.int, intW_eq]
    split
    · exact Rel.refl s
    · have h0 : Rel s { s with W := upd s.W i { s.W i with cancelled := true } } := by
        apply Rel.quiet <;> first | rfl | (simp only; grind)
      split
      · refine h0.trans (Rel.failW _ i _ (by split <;> simp) ?_)
        simp only [upd_apply, if_true]
        intro h
        simp [h]
      · exact h0

theorem Rel.hits (ts : List Tok) (s : St) : Rel s (ts.foldl St.int s) := by
  induction ts generalizing s with
  | nil => exact Rel.refl s
  | cons x ts ih => exact (Rel.int s x).trans (ih _)

theorem Rel.started (s : St) (o : Obs) (ho : (∀ i res, o ≠ .doneR i res) ∧ (∀ i res, o ≠ .doneW i res)) :
    Rel s { s with log := s.log ++ [o] } := by
  constructor
  case cap => rfl
  case grow => exact ⟨_, rfl⟩
  case pre => intro _ _; exact List.prefix_refl _
  all_goals (simp only; grind)

theorem Rel.awaitR {s : St} (h : WF s none) (i : Nat) (conn txn : Bool) (hits : List Tok) :
    Rel s (s.awaitR i conn txn hits) := by
  rw [awaitR_eq]
  split
  · exact Rel.refl s
  · rename_i hf
    simp only [ne_eq, Decidable.not_not] at hf
    refine (Rel.started s (.startR i) (by simp)).trans ?_
    have hdn := h.rfresh i hf
    dsimp only
    split
    · exact Rel.resumeR _ _
    · rename_i hc
      simp only [not_or, Bool.not_eq_true] at hc
      split
      · apply Rel.quiet <;> first | rfl | (simp only [St.queueR]; grind)
      · rename_i w rest hq
        split
        · rename_i hw
          refine Rel.trans ?_ ((Rel.hits _ _).trans (Rel.resumeW _ _))
          apply Rel.quiet <;> first | rfl | (simp only [St.takeFrom, St.handR]; grind)
        · apply Rel.quiet <;> first | rfl | (simp only; grind)

theorem Rel.awaitW {s : St} (h : WF s none) (i : Nat) (conn txn : Bool) (hits : List Tok) :
    Rel s (s.awaitW i conn txn hits) := by
  rw [awaitW_eq]
  split
  · exact Rel.refl s
  · rename_i hf
    simp only [ne_eq, Decidable.not_not] at hf
    refine (Rel.started s (.startW i) (by simp)).trans ?_
    dsimp only
    split
    · exact Rel.resumeW _ _
    · split
      · apply Rel.quiet <;> first | rfl | (simp only [St.queueW]; grind)
      · rename_i w rest hq
        have hrl := h.rlink w (by simp [hq])
        split
        · refine Rel.trans ?_ ((Rel.hits _ _).trans (Rel.resumeR _ _))
          apply Rel.quiet <;> first | rfl | (simp only [St.giveTo, St.handW]; grind)
        · apply Rel.quiet <;> first | rfl | (simp only; grind)

theorem Rel.step {s : St} (h : WF s none) (e : Ev) : Rel s (s.step e) := by
  unfold St.step
  split
  · exact Rel.refl s
  · cases e with
    | mkR =>
      have h1 := h.rnew s.nextR (Nat.le_refl _)
      apply Rel.quiet <;> first | rfl | (simp only; grind)
    | mkW =>
      have h1 := h.wnew s.nextW (Nat.le_refl _)
      apply Rel.quiet <;> first | rfl | (simp only; grind)
    | awaitR i c x l => exact Rel.awaitR h i c x l
    | awaitW i c x l => exact Rel.awaitW h i c x l
    | run k =>
      dsimp only
      unfold St.run
      have h0 : Rel s { s with posted := s.posted.eraseIdx k } := by
        apply Rel.quiet <;> first | rfl | (simp only; grind)
      split
      · exact Rel.refl s
      · exact h0.trans (Rel.resumeR _ _)
      · exact h0.trans (Rel.resumeW _ _)
    | cancelR i =>
      dsimp only
      unfold St.cancelR
      split
      · apply Rel.quiet <;> first | rfl | (simp only; grind)
      · exact Rel.refl s
    | cancelW i =>
      dsimp only
      unfold St.cancelW
      split
      · apply Rel.quiet <;> first | rfl | (simp only; grind)
      · exact Rel.refl s
    | intR i => exact Rel.int s (.r i)
    | intW i => exact Rel.int s (.w i)
    | dropR i =>
      dsimp only
      unfold St.dropR
      split
      · apply Rel.quiet <;> first | rfl | (simp only; grind)
      · exact Rel.refl s
    | dropW i =>
      dsimp only
      unfold St.dropW
      split
      · apply Rel.quiet <;> first | rfl | (simp only; grind)
      · exact Rel.refl s
    | close =>
      apply Rel.quiet <;> first | rfl | (simp only [St.close]; grind)

theorem step_ub {s : St} (h : s.ub = true) (e : Ev) : s.step e = s := by simp [St.step, h]

theorem steps_ub {s : St} (h : s.ub = true) (es : List Ev) : s.steps es = s := by
  induction es with
  | nil => rfl
  | cons e es ih =>
    show (s.step e).steps es = s
    rw [step_ub h]; exact ih

theorem Rel.steps (es : List Ev) : ∀ {s : St}, s.ub = true ∨ WF s none → Rel s (s.steps es) := by
  induction es with
  | nil => intro s _; exact Rel.refl s
  | cons e es ih =>
    intro s h
    rcases h with h | h
    · rw [steps_ub h]; exact Rel.refl s
    · exact (Rel.step h e).trans (ih (h.step e))

theorem steps_append (s : St) (a b : List Ev) : s.steps (a ++ b) = (s.steps a).steps b := by
  simp [St.steps]

theorem exec_append (cap : Nat) (a b : List Ev) : exec cap (a ++ b) = (exec cap a).steps b :=
  steps_append _ a b

theorem Rel.exec (cap : Nat) (a b : List Ev) : Rel (exec cap a) (exec cap (a ++ b)) := by
  rw [exec_append]
  exact Rel.steps b (WF.exec cap a)

theorem nodup_filterMap_inj {α β : Type} {f : α → Option β} {l : List α} (h : (l.filterMap f).Nodup)
    {a b : α} {x : β} (ha : a ∈ l) (hb : b ∈ l) (hfa : f a = some x) (hfb : f b = some x) : a = b := by
  induction l with
  | nil => simp at ha
  | cons c l ih =>
    simp only [List.mem_cons] at ha hb
    have key : ∀ y ∈ l, f c = some x → f y = some x → False := by
      intro y hy hc hfy
      rw [List.filterMap_cons_some hc, List.nodup_cons] at h
      exact h.1 (List.mem_filterMap.2 ⟨y, hy, hfy⟩)
    have hn : (l.filterMap f).Nodup := h.sublist ((List.sublist_cons_self c l).filterMap f)
    rcases ha with rfl | ha <;> rcases hb with rfl | hb
    · rfl
    · exact (key b hb hfa hfb).elim
    · exact (key a ha hfb hfa).elim
    · exact ih hn ha hb

theorem one_resultW {log : List Obs} (h : (endedW log).Nodup) {w : Nat} {a b : WRes}
    (ha : Obs.doneW w a ∈ log) (hb : Obs.doneW w b ∈ log) : a = b := by
  have := nodup_filterMap_inj (x := w) h ha hb rfl rfl
  simpa using this

theorem one_resultR {log : List Obs} (h : (endedR log).Nodup) {w : Nat} {a b : RRes}
    (ha : Obs.doneR w a ∈ log) (hb : Obs.doneR w b ∈ log) : a = b := by
  have := nodup_filterMap_inj (x := w) h ha hb rfl rfl
  simpa using this

theorem exec_cap (cap : Nat) (es : List Ev) : (exec cap es).cap = cap :=
  (Rel.exec cap [] es).cap

end Cobalt.Chan
