import Verif.Chan.Rendezvous
/-! Helper: executions of channels with limit 0. -/
namespace Cobalt.Chan

/-- No assertion fails, given well-behaved programs (`Prompt`). -/
structure Q0 (s : St) (cur : Option Tok) : Prop where
  noAss : s.asserted = false
  postW : ∀ i, Tok.w i ∈ s.posted ∨ cur = some (.w i) →
    (s.W i).direct = true ∨ (s.W i).cancelled = true ∨ (s.W i).closedF = true

/-- Everything known about a channel with limit 0. -/
structure I0 (s : St) (cur : Option Tok) : Prop where
  wf : WF s cur
  tk : TK s cur
  z : Z0 s cur
  o : Ord s
  ub : s.ub = false

theorem I0.init : I0 (St.init 0) none :=
  ⟨WF.init 0, TK.init 0, Z0.init, Ord.init 0, rfl⟩

theorem I0.resumeR {s : St} {i : Nat} (h : I0 s (some (.r i))) : I0 (s.resumeR i) none := by
  have hu : (s.resumeR i).ub = false := by
    rw [h.z.resumeR_eq h.wf]; split <;> exact h.ub
  refine ⟨?_, ?_, h.z.resumeR h.wf, ?_, hu⟩
  · rcases h.wf.resumeR with h' | h'
    · rw [hu] at h'; simp at h'
    · exact h'
  · rcases h.tk.resumeR h.wf with h' | h'
    · rw [hu] at h'; simp at h'
    · exact h'
  · rw [h.z.resumeR_eq h.wf]
    split
    · exact h.o.frame (m := [_]) rfl (List.Sublist.refl _) (List.Sublist.refl _)
        (by intro j; simp only [St.endR]; grind)
    · exact h.o.frame (m := [_]) rfl (List.Sublist.refl _) (List.Sublist.refl _)
        (by intro j; simp only [St.endR]; grind)

theorem I0.resumeW {s : St} {i : Nat} (h : I0 s (some (.w i))) : I0 (s.resumeW i) none := by
  have hu : (s.resumeW i).ub = false := by
    rw [h.z.resumeW_eq h.wf]; split
    · exact h.ub
    · split <;> exact h.ub
  refine ⟨?_, h.tk.resumeW h.wf, h.z.resumeW h.wf, ?_, hu⟩
  · rcases h.wf.resumeW with h' | h'
    · rw [hu] at h'; simp at h'
    · exact h'
  · rw [h.z.resumeW_eq h.wf]
    split
    · exact h.o.frame (m := [_]) rfl (List.Sublist.refl _) (List.Sublist.refl _) (fun _ => rfl)
    · split
      · exact h.o.frame (m := [_]) rfl (List.Sublist.refl _) (List.Sublist.refl _) (fun _ => rfl)
      · exact h.o.frame (m := [_]) rfl (List.Sublist.refl _) (List.Sublist.refl _) (fun _ => rfl)

theorem Ord.int {s : St} (o : Ord s) (x : Tok) : Ord (s.int x) := by
  cases x with
  | r i =>
    simp only [St.int, intR_eq]
    split
    · exact o
    · split
      · exact o.frame (m := [_]) rfl (List.Sublist.refl _) (List.Sublist.refl _)
          (by intro j; simp only [St.endR]; grind)
      · exact o.frame (m := []) (by simp) (List.Sublist.refl _) (List.Sublist.refl _)
          (by intro j; simp only; grind)
  | w i =>
    simp only [St.int, intW_eq]
    split
    · exact o
    · split
      · exact o.frame (m := [_]) rfl (List.Sublist.refl _) (List.Sublist.refl _) (fun _ => rfl)
      · exact o.frame (m := []) (by simp) (List.Sublist.refl _) (List.Sublist.refl _) (fun _ => rfl)

theorem int_ub (s : St) (x : Tok) : (s.int x).ub = s.ub := by
  cases x with
  | r i => simp only [St.int, intR_eq]; split <;> [rfl; (split <;> rfl)]
  | w i => simp only [St.int, intW_eq]; split <;> [rfl; (split <;> rfl)]

theorem int_asserted (s : St) (x : Tok) : (s.int x).asserted = s.asserted := by
  cases x with
  | r i => simp only [St.int, intR_eq]; split <;> [rfl; (split <;> rfl)]
  | w i => simp only [St.int, intW_eq]; split <;> [rfl; (split <;> rfl)]

theorem I0.int {s : St} {cur : Option Tok} (h : I0 s cur) (x : Tok) : I0 (s.int x) cur :=
  ⟨h.wf.int x, h.tk.int h.wf x, h.z.int h.wf x, h.o.int x, by rw [int_ub]; exact h.ub⟩

theorem I0.hits {s : St} {cur : Option Tok} (h : I0 s cur) (ts : List Tok) :
    I0 (ts.foldl St.int s) cur := by
  induction ts generalizing s with
  | nil => exact h
  | cons x ts ih => exact ih (h.int x)

theorem Q0.int {s : St} {cur : Option Tok} (h : WF s cur) (q : Q0 s cur) (x : Tok) : Q0 (s.int x) cur := by
  refine ⟨by rw [int_asserted]; exact q.noAss, ?_⟩
  intro i hi
  have h1 := q.postW i
  have h2 := h.wpost i
  have h3 := h.wcur i
  cases x with
  | r j =>
    simp only [St.int, intR_eq] at hi ⊢
    split at hi
    · rename_i hc; rw [if_pos hc]; exact h1 hi
    · rename_i hc; rw [if_neg hc]
      split at hi
      · rename_i hc; rw [if_pos hc]; exact h1 hi
      · rename_i hc; rw [if_neg hc]; exact h1 hi
  | w j =>
    simp only [St.int, intW_eq] at hi ⊢
    split at hi
    · rename_i hc; rw [if_pos hc]; exact h1 hi
    · rename_i hc; rw [if_neg hc]
      split at hi
      · rename_i hc; rw [if_pos hc]; simp only [St.endW] at hi ⊢; have := h1 hi; grind
      · rename_i hc; rw [if_neg hc]; have := h1 hi; simp only; grind

theorem Q0.hits {s : St} {cur : Option Tok} (h : WF s cur) (q : Q0 s cur) (ts : List Tok) :
    Q0 (ts.foldl St.int s) cur := by
  induction ts generalizing s with
  | nil => exact q
  | cons x ts ih => exact ih (h.int x) (q.int h x)

theorem Q0.resumeR {s : St} {i : Nat} (h : I0 s (some (.r i))) (q : Q0 s (some (.r i))) :
    Q0 (s.resumeR i) none := by
  rw [h.z.resumeR_eq h.wf]
  split <;> exact ⟨q.noAss, fun j hj => q.postW j (by simpa [St.endR] using hj)⟩

theorem Q0.resumeW {s : St} {i : Nat} (h : I0 s (some (.w i))) (q : Q0 s (some (.w i))) :
    Q0 (s.resumeW i) none := by
  have hp := q.postW
  have ha := q.noAss
  have hi := hp i (Or.inr rfl)
  rw [h.z.resumeW_eq h.wf]
  split
  · refine ⟨ha, fun j hj => ?_⟩
    simp only [St.endW] at hj ⊢
    have := hp j
    grind
  · split
    · refine ⟨ha, fun j hj => ?_⟩
      simp only [St.endW] at hj ⊢
      have := hp j
      grind
    · refine ⟨?_, fun j hj => ?_⟩
      · simp only [ha]
        grind
      · simp only [St.endW] at hj ⊢
        have := hp j
        grind

/-- Awaiting a read on a channel with limit 0. -/
theorem I0.awaitR {s : St} (h : I0 s none) (i : Nat) (conn txn : Bool) (hits : List Tok) :
    ((s.awaitR i conn txn hits).ub = true ∧ ¬ s.noStale) ∨
    (I0 (s.awaitR i conn txn hits) none ∧ (Q0 s none → Q0 (s.awaitR i conn txn hits) none)) := by
  rw [awaitR_eq]
  split
  · exact Or.inr ⟨h, id⟩
  · rename_i hf
    simp only [ne_eq, Decidable.not_not] at hf
    have hns : Obs.startR i ∉ s.log := by
      rcases h.tk.noStR i (Or.inl hf) with h | h
      · exact h
      · simp at h
    have hl := h.wf.logged (s.log ++ [Obs.startR i])
    have ht := h.tk.startR (i := i)
    have ho : Ord { s with log := s.log ++ [Obs.startR i] } :=
      h.o.frame (m := [_]) rfl (List.Sublist.refl _) (List.Sublist.refl _) (fun _ => rfl)
    have hlast : ∀ a, a ∈ s.log ++ [Obs.startR i] → a ≠ .startR i →
        (s.log ++ [Obs.startR i]).idxOf a < (s.log ++ [Obs.startR i]).idxOf (.startR i) := by
      intro a ha hne
      have := at_last hns
      rw [this.1]
      apply this.2
      simp only [List.mem_append, List.mem_singleton] at ha
      rcases ha with ha | ha
      · exact ha
      · exact absurd ha hne
    dsimp only
    split
    · rename_i hn
      right
      have hI : I0 { s with log := s.log ++ [Obs.startR i] } (some (.r i)) := by
        refine ⟨hl.grabR hf, ht, ?_, ho, h.ub⟩
        have hz := h.z
        have hb := hz.buf0
        simp only [St.readReady, hb] at hn
        constructor
        all_goals (cases hz; simp only at *; grind)
      refine ⟨hI.resumeR, fun q => ?_⟩
      apply Q0.resumeR hI
      exact ⟨q.noAss, fun j hj => q.postW j (by simpa using hj)⟩
    · rename_i hn
      simp only [St.readReady, not_or, Bool.not_eq_true, Bool.or_eq_false_iff] at hn
      have hdn := h.wf.rfresh i hf
      have hnr : i ∉ s.rq := by have := h.wf.rlink i; grind
      split
      · rename_i hq
        right
        refine ⟨⟨hl.queueR conn txn hf hn.2 hn.1.2 hq, ht.queueR hl conn txn hf, ?_,
          ho.queueR conn txn (by simp) hdn hlast hnr, h.ub⟩, fun q => ?_⟩
        · have hz := h.z
          have := h.wf.rpost i
          constructor
          all_goals (cases hz; simp only [St.queueR] at *; grind)
        · exact ⟨q.noAss, fun j hj => q.postW j (by simpa [St.queueR] using hj)⟩
      · rename_i w rest hq
        split
        · rename_i hw
          right
          have hw1 := hl.handR txn hf hn.2 hq hw
          have hr : s.rq = [] := by
            rcases h.wf.excl with h | h
            · exact h
            · rw [hq] at h; simp at h
          have hI : I0 (({ s with log := s.log ++ [Obs.startR i] }.takeFrom i w txn).handR i w) (some (.w w)) := by
            refine ⟨hw1, ht.handR hl txn hf hw, ?_,
              ho.handR txn (by simp) hdn hlast hr hq, h.ub⟩
            have hz := h.z
            have h3 : ∀ v, Obs.doneR i v ∉ s.log := by
              intro v hv
              have := h.tk.endR i v hv
              simp [hf] at this
            constructor
            all_goals (cases hz; simp only [St.takeFrom, St.handR] at *; grind)
          refine ⟨(hI.hits _).resumeW, fun q => ?_⟩
          apply Q0.resumeW (hI.hits _)
          apply Q0.hits hw1
          refine ⟨q.noAss, fun j hj => ?_⟩
          have := q.postW j
          simp only [St.takeFrom, St.handR] at hj ⊢
          grind
        · rename_i hw
          left
          refine ⟨rfl, fun hst => ?_⟩
          have h1 := hst.2 w (by simp [hq])
          have h2 := h.wf.wlink w (by simp [hq])
          simp only [Bool.not_eq_true] at hw
          simp [h1, hw] at h2

/-- Awaiting a write on a channel with limit 0. -/
theorem I0.awaitW {s : St} (h : I0 s none) (i : Nat) (conn txn : Bool) (hits : List Tok) :
    ((s.awaitW i conn txn hits).ub = true ∧ ¬ s.noStale) ∨
    (I0 (s.awaitW i conn txn hits) none ∧
      ((s.closed = true → (s.W i).closedF = true) → Q0 s none → Q0 (s.awaitW i conn txn hits) none)) := by
  rw [awaitW_eq]
  split
  · exact Or.inr ⟨h, fun _ => id⟩
  · rename_i hf
    simp only [ne_eq, Decidable.not_not] at hf
    have hns : Obs.startW i ∉ s.log := by
      rcases h.tk.noStW i (Or.inl hf) with h | h
      · exact h
      · simp at h
    have hl := h.wf.logged (s.log ++ [Obs.startW i])
    have ht := h.tk.startW (i := i)
    have ho : Ord { s with log := s.log ++ [Obs.startW i] } :=
      h.o.frame (m := [_]) rfl (List.Sublist.refl _) (List.Sublist.refl _) (fun _ => rfl)
    have hlast : ∀ a, a ∈ s.log ++ [Obs.startW i] → a ≠ .startW i →
        (s.log ++ [Obs.startW i]).idxOf a < (s.log ++ [Obs.startW i]).idxOf (.startW i) := by
      intro a ha hne
      have := at_last hns
      rw [this.1]
      apply this.2
      simp only [List.mem_append, List.mem_singleton] at ha
      rcases ha with ha | ha
      · exact ha
      · exact absurd ha hne
    have hz1 : Z0 { s with log := s.log ++ [Obs.startW i] } (some (.w i)) := by
      have hz := h.z
      constructor
      all_goals (cases hz; simp only at *; grind)
    dsimp only
    split
    · rename_i hn
      right
      have hI : I0 { s with log := s.log ++ [Obs.startW i] } (some (.w i)) :=
        ⟨hl.grabW hf, ht, hz1, ho, h.ub⟩
      refine ⟨hI.resumeW, fun hp q => ?_⟩
      apply Q0.resumeW hI
      refine ⟨q.noAss, fun j hj => ?_⟩
      have := q.postW j
      have hb := h.z.buf0
      have hc := h.z.cap0
      simp only [St.writeReady, hb, hc] at hn
      simp only at hj
      grind
    · rename_i hn
      simp only [St.writeReady, not_or, Bool.not_eq_true, Bool.or_eq_false_iff] at hn
      have hdn := h.wf.wfresh i hf
      have hnr : i ∉ s.wq := by have := h.wf.wlink i; grind
      have hih : ∀ j, (s.R j).direct ≠ some i := by intro j hj; have := h.tk.dirW j i hj; grind
      have hk : (s.W i).closedF = false := by
        have := h.wf.wclosed i
        have := hn.1.2
        grind
      split
      · rename_i hq
        right
        refine ⟨⟨hl.queueW conn txn hf hn.2 hn.1.2 hk hq, ht.queueW hl conn txn hf, ?_,
          ho.queueW conn txn (by simp) hih hlast hnr, h.ub⟩, fun _ q => ?_⟩
        · have hz := h.z
          constructor
          all_goals (cases hz; simp only [St.queueW] at *; grind)
        · refine ⟨q.noAss, fun j hj => ?_⟩
          have := q.postW j
          have := h.wf.wpost i
          simp only [St.queueW] at hj ⊢
          grind
      · rename_i w rest hq
        split
        · rename_i hw
          right
          have hw1 := hl.handW txn hf hn.2 hk hq hw
          have hr : s.wq = [] := by
            rcases h.wf.excl with h | h
            · rw [hq] at h; simp at h
            · exact h
          have hrl := h.wf.rlink w (by simp [hq])
          have hI : I0 (({ s with log := s.log ++ [Obs.startW i] }.giveTo i w txn).handW i w) (some (.r w)) := by
            refine ⟨hw1, ht.handW hl txn hf hw, ?_,
              ho.handW txn (by simp) hih hrl.1 hlast hr hq, h.ub⟩
            have hz := h.z
            constructor
            all_goals (cases hz; simp only [St.giveTo, St.handW] at *; grind)
          refine ⟨(hI.hits _).resumeR, fun _ q => ?_⟩
          apply Q0.resumeR (hI.hits _)
          apply Q0.hits hw1
          refine ⟨q.noAss, fun j hj => ?_⟩
          have := q.postW j
          simp only [St.giveTo, St.handW] at hj ⊢
          grind
        · rename_i hw
          left
          refine ⟨rfl, fun hst => ?_⟩
          have h1 := hst.1 w (by simp [hq])
          have h2 := h.wf.rlink w (by simp [hq])
          simp only [Bool.not_eq_true] at hw
          simp [h1, hw] at h2

theorem I0.step {s : St} (h : I0 s none) (e : Ev) :
    ((s.step e).ub = true ∧ ¬ s.noStale ∧ e.isDrop = false) ∨
    (I0 (s.step e) none ∧ ((match e with
      | .awaitW i .. => s.closed = true → (s.W i).closedF = true
      | _ => True) → Q0 s none → Q0 (s.step e) none)) := by
  have hu := h.ub
  cases e with
  | mkR =>
    right
    refine ⟨⟨h.wf.mkR, by simpa [St.step, hu] using h.tk.mkR h.wf, ?_, ?_, ?_⟩, fun _ q => ?_⟩
    · simp only [St.step, hu, Bool.false_eq_true, if_false]
      have hz := h.z
      have h1 := h.wf.rnew s.nextR (Nat.le_refl _)
      have h2 := h.wf.rpost s.nextR
      constructor
      all_goals (cases hz; simp only at *; grind)
    · simp only [St.step, hu, Bool.false_eq_true, if_false]
      have h1 := h.wf.rnew s.nextR (Nat.le_refl _)
      refine h.o.frame (m := []) (by simp) (List.Sublist.refl _) (List.Sublist.refl _) ?_
      intro j; simp only; grind
    · simp [St.step, hu]
    · simp only [St.step, hu, Bool.false_eq_true, if_false]
      exact ⟨q.noAss, q.postW⟩
  | mkW =>
    right
    refine ⟨⟨h.wf.mkW, by simpa [St.step, hu] using h.tk.mkW h.wf, ?_, ?_, ?_⟩, fun _ q => ?_⟩
    · simp only [St.step, hu, Bool.false_eq_true, if_false]
      have hz := h.z
      constructor
      all_goals (cases hz; simp only at *; grind)
    · simp only [St.step, hu, Bool.false_eq_true, if_false]
      exact h.o.frame (m := []) (by simp) (List.Sublist.refl _) (List.Sublist.refl _) (fun _ => rfl)
    · simp [St.step, hu]
    · simp only [St.step, hu, Bool.false_eq_true, if_false]
      refine ⟨q.noAss, fun j hj => ?_⟩
      have := q.postW j
      have h1 := h.wf.wnew s.nextW (Nat.le_refl _)
      have h2 := h.wf.wpost s.nextW
      simp only at hj ⊢
      grind
  | awaitR i c t l =>
    simp only [St.step, hu, Bool.false_eq_true, if_false]
    rcases h.awaitR i c t l with ⟨h1, h2⟩ | ⟨h1, h2⟩
    · exact Or.inl ⟨h1, h2, rfl⟩
    · exact Or.inr ⟨h1, fun _ => h2⟩
  | awaitW i c t l =>
    simp only [St.step, hu, Bool.false_eq_true, if_false]
    rcases h.awaitW i c t l with ⟨h1, h2⟩ | ⟨h1, h2⟩
    · exact Or.inl ⟨h1, h2, rfl⟩
    · exact Or.inr ⟨h1, h2⟩
  | run k =>
    right
    simp only [St.step, hu, Bool.false_eq_true, if_false]
    unfold St.run
    split
    · exact ⟨h, fun _ => id⟩
    · rename_i i hk
      have hI : I0 { s with posted := s.posted.eraseIdx k } (some (.r i)) := by
        refine ⟨h.wf.unpost hk, h.tk.unpost h.wf hk, ?_, ?_, hu⟩
        · have hz := h.z
          have hin : Tok.r i ∈ s.posted := List.mem_of_getElem? hk
          have hm := nodup_eraseIdx_mem h.wf.ndP hk
          constructor
          all_goals (cases hz; simp only at *; grind)
        · exact h.o.frame (m := []) (by simp) (List.Sublist.refl _) (List.Sublist.refl _) (fun _ => rfl)
      refine ⟨hI.resumeR, fun _ q => Q0.resumeR hI ⟨q.noAss, fun j hj => q.postW j ?_⟩⟩
      have hm := nodup_eraseIdx_mem h.wf.ndP hk
      simp only at hj
      grind
    · rename_i i hk
      have hin : Tok.w i ∈ s.posted := List.mem_of_getElem? hk
      have hm := nodup_eraseIdx_mem h.wf.ndP hk
      have hI : I0 { s with posted := s.posted.eraseIdx k } (some (.w i)) := by
        refine ⟨h.wf.unpost hk, h.tk.unpost h.wf hk, ?_, ?_, hu⟩
        · have hz := h.z
          constructor
          all_goals (cases hz; simp only at *; grind)
        · exact h.o.frame (m := []) (by simp) (List.Sublist.refl _) (List.Sublist.refl _) (fun _ => rfl)
      refine ⟨hI.resumeW, fun _ q => Q0.resumeW hI ⟨q.noAss, fun j hj => q.postW j ?_⟩⟩
      simp only at hj
      grind
  | cancelR i =>
    right
    have hwf := h.wf.cancelR i
    have htk : TK (s.cancelR i) none := by
      rcases h.tk.step h.wf (.cancelR i) with h' | h'
      · simp [St.step, hu, St.cancelR] at h'; split at h' <;> simp [hu] at h'
      · simpa [St.step, hu] using h'
    simp only [St.step, hu, Bool.false_eq_true, if_false]
    refine ⟨⟨hwf, htk, ?_, ?_, ?_⟩, fun _ q => ?_⟩
    · unfold St.cancelR
      split
      · have hz := h.z
        constructor
        all_goals (cases hz; simp only at *; grind)
      · exact h.z
    · unfold St.cancelR
      split
      · exact h.o.frame (m := []) (by simp) List.erase_sublist (List.Sublist.refl _)
          (by intro j; simp only; grind)
      · exact h.o
    · unfold St.cancelR
      split <;> exact hu
    · unfold St.cancelR
      split
      · exact ⟨q.noAss, fun j hj => q.postW j (by simp only at hj; grind)⟩
      · exact q
  | cancelW i =>
    right
    have hwf := h.wf.cancelW i
    have htk : TK (s.cancelW i) none := by
      rcases h.tk.step h.wf (.cancelW i) with h' | h'
      · simp [St.step, hu, St.cancelW] at h'; split at h' <;> simp [hu] at h'
      · simpa [St.step, hu] using h'
    simp only [St.step, hu, Bool.false_eq_true, if_false]
    refine ⟨⟨hwf, htk, ?_, ?_, ?_⟩, fun _ q => ?_⟩
    · unfold St.cancelW
      split
      · have hz := h.z
        constructor
        all_goals (cases hz; simp only at *; grind)
      · exact h.z
    · unfold St.cancelW
      split
      · exact h.o.frame (m := []) (by simp) (List.Sublist.refl _) List.erase_sublist (fun _ => rfl)
      · exact h.o
    · unfold St.cancelW
      split <;> exact hu
    · unfold St.cancelW
      split
      · refine ⟨q.noAss, fun j hj => ?_⟩
        have := q.postW j
        simp only at hj ⊢
        grind
      · exact q
  | intR i =>
    right
    have := h.int (.r i)
    simp only [St.step, hu, Bool.false_eq_true, if_false]
    exact ⟨this, fun _ q => q.int h.wf (.r i)⟩
  | intW i =>
    right
    have := h.int (.w i)
    simp only [St.step, hu, Bool.false_eq_true, if_false]
    exact ⟨this, fun _ q => q.int h.wf (.w i)⟩
  | dropR i =>
    right
    simp only [St.step, hu, Bool.false_eq_true, if_false]
    refine ⟨⟨h.wf.dropR i, h.tk.dropR i, ?_, ?_, ?_⟩, fun _ q => ?_⟩
    · unfold St.dropR
      split
      · have hz := h.z
        constructor
        all_goals (cases hz; simp only at *; grind)
      · exact h.z
    · unfold St.dropR
      split
      · exact h.o.frame (m := []) (by simp) List.erase_sublist (List.Sublist.refl _)
          (by intro j; simp only; grind)
      · exact h.o
    · unfold St.dropR
      split <;> exact hu
    · unfold St.dropR
      split
      · exact ⟨q.noAss, q.postW⟩
      · exact q
  | dropW i =>
    right
    simp only [St.step, hu, Bool.false_eq_true, if_false]
    refine ⟨⟨h.wf.dropW i, h.tk.dropW i, ?_, ?_, ?_⟩, fun _ q => ?_⟩
    · unfold St.dropW
      split
      · have hz := h.z
        constructor
        all_goals (cases hz; simp only at *; grind)
      · exact h.z
    · unfold St.dropW
      split
      · exact h.o.frame (m := []) (by simp) (List.Sublist.refl _) List.erase_sublist (fun _ => rfl)
      · exact h.o
    · unfold St.dropW
      split <;> exact hu
    · unfold St.dropW
      split
      · refine ⟨q.noAss, fun j hj => ?_⟩
        have := q.postW j
        simp only at hj ⊢
        grind
      · exact q
  | close =>
    right
    have htk : TK s.close none := by
      rcases h.tk.step h.wf .close with h' | h'
      · simp [St.step, hu, St.close] at h'
      · simpa [St.step, hu] using h'
    simp only [St.step, hu, Bool.false_eq_true, if_false]
    refine ⟨⟨h.wf.close, htk, ?_, ?_, hu⟩, fun _ q => ?_⟩
    · have hz := h.z
      constructor
      case postR => intro i _; right; right; rfl
      all_goals (cases hz; simp only [St.close] at *; grind)
    · exact h.o.frame (m := []) (by simp [St.close]) (by simp [St.close]) (by simp [St.close])
        (by intro j; simp only [St.close]; grind)
    · refine ⟨q.noAss, fun j hj => ?_⟩
      have := q.postW j
      simp only [St.close, List.mem_append, List.mem_map, List.mem_filter] at hj ⊢
      grind

theorem I0.exec (es : List Ev) : (exec 0 es).ub = true ∨ I0 (exec 0 es) none := by
  apply exec_induction 0 (P := fun s => s.ub = true ∨ I0 s none)
  · exact Or.inr I0.init
  · intro s e h
    rcases h with h | h
    · left; simp [St.step, h]
    · rcases h.step e with h1 | h1
      · exact Or.inl h1.1
      · exact Or.inr h1.1

theorem steps_ub_mono (es : List Ev) : ∀ s : St, s.ub = true → (s.steps es).ub = true := by
  induction es with
  | nil => intro s h; exact h
  | cons e es ih => intro s h; exact ih _ (by simp [St.step, h])

/-- Up to undefined behaviour, whether or not interrupted operations are
destroyed at once. -/
theorem prompt0 (es : List Ev) : ∀ s, I0 s none → Q0 s none → Prompt s es →
    (s.steps es).ub = true ∨ (I0 (s.steps es) none ∧ Q0 (s.steps es) none) := by
  induction es with
  | nil => intro s h q _; exact Or.inr ⟨h, q⟩
  | cons e es ih =>
    intro s h q hp
    rcases h.step e with h1 | h1
    · exact Or.inl (steps_ub_mono es _ h1.1)
    · exact ih _ h1.1 (h1.2 hp.1 q) hp.2

theorem tidy0 (es : List Ev) : ∀ s, I0 s none → Tidy s es → I0 (s.steps es) none ∧
    (Prompt s es → Q0 s none → Q0 (s.steps es) none) := by
  induction es with
  | nil => intro s h _; exact ⟨h, fun _ => id⟩
  | cons e es ih =>
    intro s h ht
    rcases h.step e with h1 | h1
    · rcases ht.1 with h2 | h2
      · exact absurd h2 h1.2.1
      · rw [h1.2.2] at h2; simp at h2
    · obtain ⟨ha, hb⟩ := ih _ h1.1 ht.2
      exact ⟨ha, fun hp hq => hb hp.2 (h1.2 hp.1 hq)⟩

end Cobalt.Chan
