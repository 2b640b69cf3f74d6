import Verif.Chan.Fifo3
/-! Helper: executions with one producer and one consumer. -/
namespace Cobalt.Chan

theorem J.awaitR {s : St} (h : WF s none) (t : TK s none) (j : J s none) (hn : s.noStale)
    (hone : ∀ k, (s.R k).status ≠ .susp) (i : Nat) (conn txn : Bool) (hits : List Tok) :
    J (s.awaitR i conn txn hits) none := by
  obtain ⟨hnr, hnw⟩ := noStale_wait h hn
  rw [awaitR_eq]
  split
  · exact j
  · rename_i hf
    simp only [ne_eq, Decidable.not_not] at hf
    have hl := h.logged (s.log ++ [Obs.startR i])
    have hdn := h.rfresh i hf
    dsimp only
    split
    · rename_i hc
      have hp : s.buf ≠ [] ∨ s.closed = true ∨ (s.R i).cancelled = true := by
        simp [St.readReady] at hc; tauto
      have hj : J { s with log := s.log ++ [Obs.startR i] } (some (.r i)) :=
        ⟨j.toJC.startR hone hp hdn, j.rqb, j.wqb⟩
      exact hj.resumeR (hl.grabR hf) hnw
    · rename_i hc
      simp only [St.readReady, not_or, Bool.not_eq_true, Bool.or_eq_false_iff] at hc
      have hb : s.buf = [] := by simpa using hc.1.1
      split
      · rename_i hq
        refine ⟨j.toJC.queueR h hone hf conn txn, fun _ => hb, fun hw => absurd hq hw⟩
      · rename_i w rest hq
        have hw := hnw w (by simp [hq])
        rw [if_pos hw]
        have hcap : s.cap = 0 := by
          have := j.wqb (by simp [hq])
          simpa [hb] using this.symm
        have hr : s.rq = [] := by have := h.excl; simp [hq] at this; exact this
        have hj : J ((({ s with log := s.log ++ [Obs.startR i] } : St).takeFrom i w txn).handR i w) (some (.w w)) :=
          ⟨j.toJC.handR h t hone hf hw hcap txn, fun _ => hb, fun _ => by simp [St.takeFrom, St.handR, hb, hcap]⟩
        have hw1 := hl.handR txn hf hc.2 hq hw
        have ht1 := (t.startR (i := i)).handR hl txn hf hw
        apply (hj.hits hw1 _).resumeW (hw1.hits _) (ht1.hits hw1 _)
        rw [(hits_rq _ _).1]
        simp [St.takeFrom, St.handR, hr]

theorem J.awaitW {s : St} (h : WF s none) (t : TK s none) (j : J s none) (hn : s.noStale)
    (hone : ∀ k, (s.W k).status ≠ .susp) (i : Nat)
    (hpr : s.closed = true → (s.W i).closedF = true) (conn txn : Bool) (hits : List Tok) :
    J (s.awaitW i conn txn hits) none := by
  obtain ⟨hnr, hnw⟩ := noStale_wait h hn
  rw [awaitW_eq]
  split
  · exact j
  · rename_i hf
    simp only [ne_eq, Decidable.not_not] at hf
    have hl := h.logged (s.log ++ [Obs.startW i])
    have hlen := h.len
    have hdn := h.wfresh i hf
    have hns : Obs.startW i ∉ s.log := by
      rcases t.noStW i (Or.inl hf) with h | h
      · exact h
      · simp at h
    have hnd : Obs.doneW i .ok ∉ s.log := by
      intro hm; have := t.endW i _ hm; grind
    dsimp only
    split
    · rename_i hc
      have hp : s.buf.length < s.cap ∨ (s.W i).closedF = true ∨ (s.W i).cancelled = true := by
        simp [St.writeReady] at hc
        rcases hc with (hc | hc) | hc
        · left; omega
        · right; left; exact hpr hc
        · right; right; exact hc
      have hj : J { s with log := s.log ++ [Obs.startW i] } (some (.w i)) :=
        ⟨j.toJC.startW hone hp hns hnd, j.rqb, j.wqb⟩
      exact hj.resumeW (hl.grabW hf) t.startW hnr
    · rename_i hc
      simp only [St.writeReady, not_or, Bool.not_eq_true, Bool.or_eq_false_iff] at hc
      have hb : s.buf.length = s.cap := by simpa using hc.1.1
      have hk : (s.W i).closedF = false := by
        have := h.wclosed i
        have := hc.1.2
        grind
      split
      · rename_i hq
        refine ⟨j.toJC.queueW h hone hf hns hnd conn txn, fun hw => absurd hq hw, fun _ => hb⟩
      · rename_i w rest hq
        have hw := hnr w (by simp [hq])
        rw [if_pos hw]
        have hb0 : s.buf = [] := j.rqb (by simp [hq])
        have hcap : s.cap = 0 := by simpa [hb0] using hb.symm
        have hr : s.wq = [] := by have := h.excl; simp [hq] at this; exact this
        have hj : J ((({ s with log := s.log ++ [Obs.startW i] } : St).giveTo i w txn).handW i w) (some (.r w)) :=
          ⟨j.toJC.handW h hone hns hnd hf hw hcap txn, fun _ => hb0, fun _ => by simp [St.giveTo, St.handW, hb0, hcap]⟩
        have hw1 := hl.handW txn hf hc.2 hk hq hw
        apply (hj.hits hw1 _).resumeR (hw1.hits _)
        rw [(hits_rq _ _).2]
        simp [St.giveTo, St.handW, hr]

theorem J.run {s : St} (h : WF s none) (t : TK s none) (j : J s none) (hn : s.noStale) (k : Nat) :
    J (s.run k) none := by
  obtain ⟨hnr, hnw⟩ := noStale_wait h hn
  unfold St.run
  split
  · exact j
  · rename_i i hk
    have hin : Tok.r i ∈ s.posted := List.mem_of_getElem? hk
    have hm := nodup_eraseIdx_mem h.ndP hk
    have hs := h.rpost i hin
    have ht : ({ s with posted := s.posted.eraseIdx k } : St).taken = s.taken := rfl
    have hj : J { s with posted := s.posted.eraseIdx k } (some (.r i)) := by
      refine ⟨?_, j.rqb, j.wqb⟩
      constructor
      case fifo1 => rw [ht]; have := j.fifo1; simp only [St.actR] at *; grind
      case fifo0 => rw [ht]; have := j.fifo0; simp only [St.actR] at *; grind
      all_goals (cases j.toJC; simp only [St.actR, St.actW] at *; grind)
    exact hj.resumeR (h.unpost hk) hnw
  · rename_i i hk
    have hin : Tok.w i ∈ s.posted := List.mem_of_getElem? hk
    have hm := nodup_eraseIdx_mem h.ndP hk
    have hs := h.wpost i hin
    have ht : ({ s with posted := s.posted.eraseIdx k } : St).taken = s.taken := rfl
    have hj : J { s with posted := s.posted.eraseIdx k } (some (.w i)) := by
      refine ⟨?_, j.rqb, j.wqb⟩
      constructor
      case fifo1 => rw [ht]; have := j.fifo1; simp only [St.actR] at *; grind
      case fifo0 => rw [ht]; have := j.fifo0; simp only [St.actR] at *; grind
      all_goals (cases j.toJC; simp only [St.actR, St.actW] at *; grind)
    exact hj.resumeW (h.unpost hk) (t.unpost h hk) hnr

/-- Changes that touch neither the log, the buffer nor what was handed over. -/
theorem JC.frame {s s' : St} (j : JC s none)
    (hcap : s'.cap = s.cap) (hbuf : s'.buf = s.buf) (hlog : s'.log = s.log)
    (hcl : s.closed = true → s'.closed = true)
    (hub : s'.ub = s.ub) (ha : s'.asserted = s.asserted)
    (hR : ∀ i, (s'.R i).direct ≠ none → (s'.R i).direct = (s.R i).direct)
    (hW : ∀ i, (s'.W i).direct = true → (s.W i).direct = true)
    (hRs : ∀ i, ((s'.R i).status = .susp → (s.R i).status = .susp) ∧
      ((s.R i).status = .susp → (s'.R i).status = .susp ∧ (s'.R i).direct = (s.R i).direct))
    (hWs : ∀ i, ((s'.W i).status = .susp → (s.W i).status = .susp) ∧
      ((s.W i).status = .susp → (s'.W i).status = .susp ∧ (s'.W i).direct = (s.W i).direct))
    (hpr : ∀ i, Tok.r i ∈ s'.posted → (s'.R i).cancelled = false → (s'.R i).direct = none → s'.closed = true ∨ s.closed = true ∨
      (Tok.r i ∈ s.posted ∧ (s.R i).cancelled = false ∧ (s.R i).direct = none))
    (hpw : ∀ i, Tok.w i ∈ s'.posted → (s'.W i).cancelled = false → (s'.W i).closedF = false → (s'.W i).direct = false →
      (Tok.w i ∈ s.posted ∧ (s.W i).cancelled = false ∧ (s.W i).closedF = false ∧ (s.W i).direct = false)) :
    JC s' none := by
  have ht : s'.taken = s.taken := by
    apply taken_congr
    · rw [hlog]
    · intro w _
      rw [hlog]
      have := hWs w
      grind
  constructor
  case fifo1 =>
    rw [ht, hlog, hbuf]
    intro i d hi hd
    simp only [St.actR, reduceCtorEq, or_false] at hi
    have h1 := (hRs i).1 hi
    exact j.fifo1 i d (Or.inl h1) (by rw [← ((hRs i).2 h1).2]; exact hd)
  case fifo0 =>
    rw [ht, hlog, hbuf]
    intro hi
    apply j.fifo0
    intro k hk
    simp only [St.actR, reduceCtorEq, or_false] at hk
    have h1 := (hRs k).2 hk
    rw [← h1.2]
    exact hi k (Or.inl h1.1)
  all_goals (cases j; simp only [St.actR, St.actW] at *; grind)

/-- Events in which nobody's `await_resume` runs to a wake-up. -/
def Ev.isQuiet : Ev → Bool
  | .awaitR .. | .awaitW .. | .run _ => false
  | _ => true

theorem J.step_quiet {s : St} (h : WF s none) (t : TK s none) (j : J s none) (e : Ev)
    (hp : Prompt s [e]) (ho : Spsc s [e]) (hn : e.isQuiet = true) : J (s.step e) none := by
  have hu := j.ub
  unfold St.step
  rw [if_neg (by simp [hu])]
  cases e with
  | mkR =>
    have h1 := h.rnew s.nextR (Nat.le_refl _)
    have h2 := h.rpost s.nextR
    refine ⟨j.toJC.frame rfl rfl rfl id rfl rfl ?_ (fun _ => id) ?_ (fun i => ⟨id, fun h => ⟨h, rfl⟩⟩) ?_ ?_, j.rqb, j.wqb⟩
    all_goals (simp only; grind)
  | mkW =>
    have h1 := h.wnew s.nextW (Nat.le_refl _)
    have h2 := h.wpost s.nextW
    refine ⟨j.toJC.frame rfl rfl rfl id rfl rfl (fun _ _ => rfl) ?_ (fun i => ⟨id, fun h => ⟨h, rfl⟩⟩) ?_ ?_ ?_, j.rqb, j.wqb⟩
    all_goals (simp only; grind)
  | awaitR i c x l => simp [Ev.isQuiet] at hn
  | awaitW i c x l => simp [Ev.isQuiet] at hn
  | run k => simp [Ev.isQuiet] at hn
  | cancelR i =>
    unfold St.cancelR
    dsimp only
    split
    · refine ⟨j.toJC.frame rfl rfl rfl id rfl rfl ?_ (fun _ => id) ?_ (fun i => ⟨id, fun h => ⟨h, rfl⟩⟩) ?_ ?_, ?_, j.wqb⟩
      case refine_5 =>
        intro hne
        apply j.rqb
        intro he
        simp [he] at hne
      all_goals (simp only; grind)
    · exact j
  | cancelW i =>
    unfold St.cancelW
    dsimp only
    split
    · refine ⟨j.toJC.frame rfl rfl rfl id rfl rfl (fun _ _ => rfl) ?_ (fun i => ⟨id, fun h => ⟨h, rfl⟩⟩) ?_ ?_ ?_, j.rqb, ?_⟩
      case refine_5 =>
        intro hne
        apply j.wqb
        intro he
        simp [he] at hne
      all_goals (simp only; grind)
    · exact j
  | intR i => exact j.int h (.r i)
  | intW i => exact j.int h (.w i)
  | dropR i =>
    unfold St.dropR
    dsimp only
    split
    · have h2 := h.rpost i
      refine ⟨j.toJC.frame rfl rfl rfl id rfl rfl ?_ (fun _ => id) ?_ (fun i => ⟨id, fun h => ⟨h, rfl⟩⟩) ?_ ?_, ?_, j.wqb⟩
      case refine_5 =>
        intro hne
        apply j.rqb
        intro he
        simp [he] at hne
      all_goals (simp only; grind)
    · exact j
  | dropW i =>
    unfold St.dropW
    dsimp only
    split
    · have h2 := h.wpost i
      refine ⟨j.toJC.frame rfl rfl rfl id rfl rfl (fun _ _ => rfl) ?_ (fun i => ⟨id, fun h => ⟨h, rfl⟩⟩) ?_ ?_ ?_, j.rqb, ?_⟩
      case refine_5 =>
        intro hne
        apply j.wqb
        intro he
        simp [he] at hne
      all_goals (simp only; grind)
    · exact j
  | close =>
    refine ⟨j.toJC.frame rfl rfl rfl (fun _ => rfl) rfl rfl ?_ ?_ ?_ ?_ (fun _ _ _ _ => Or.inl rfl) ?_, by simp [St.close], by simp [St.close]⟩
    all_goals (simp only [St.close, List.mem_append, List.mem_map, List.mem_filter]; grind)

theorem J.step {s : St} (h : WF s none) (t : TK s none) (j : J s none) (e : Ev)
    (hp : Prompt s [e]) (ho : Spsc s [e]) (hn : s.noStale ∨ e.isDrop = true) : J (s.step e) none := by
  by_cases hq : e.isQuiet = true
  · exact j.step_quiet h t e hp ho hq
  · have hu := j.ub
    cases e with
    | awaitR i c x l =>
      simp only [St.step, hu, Bool.false_eq_true, if_false]
      exact j.awaitR h t (by simpa [Ev.isDrop] using hn) ho.1 i c x l
    | awaitW i c x l =>
      simp only [St.step, hu, Bool.false_eq_true, if_false]
      exact j.awaitW h t (by simpa [Ev.isDrop] using hn) ho.1 i hp.1 c x l
    | run k =>
      simp only [St.step, hu, Bool.false_eq_true, if_false]
      exact j.run h t (by simpa [Ev.isDrop] using hn) k
    | _ => simp [Ev.isQuiet] at hq

theorem spsc_inv (es : List Ev) : ∀ s, WF s none → TK s none → J s none → Tidy s es → Prompt s es → Spsc s es →
    WF (s.steps es) none ∧ TK (s.steps es) none ∧ J (s.steps es) none := by
  induction es with
  | nil => intro s h t j _ _ _; exact ⟨h, t, j⟩
  | cons e es ih =>
    intro s h t j ht hp hs
    have hj := j.step h t e ⟨hp.1, trivial⟩ ⟨hs.1, trivial⟩ ht.1
    have hu := hj.ub
    have hw : WF (s.step e) none := by
      rcases h.step e with h1 | h1
      · simp [hu] at h1
      · exact h1
    have hk : TK (s.step e) none := by
      rcases t.step h e with h1 | h1
      · simp [hu] at h1
      · exact h1
    exact ih _ hw hk hj ht.2 hp.2 hs.2

theorem spsc_exec {cap : Nat} {es : List Ev} (ht : Tidy (St.init cap) es) (hp : Prompt (St.init cap) es)
    (hs : Spsc (St.init cap) es) :
    WF (exec cap es) none ∧ TK (exec cap es) none ∧ J (exec cap es) none :=
  spsc_inv es _ (WF.init cap) (TK.init cap) (J.init cap) ht hp hs

end Cobalt.Chan
