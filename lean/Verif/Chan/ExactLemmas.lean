import Verif.Chan.PropsClose
/-!
# Lemmas for the exact statements of C08 and C09
-/
namespace Cobalt.Chan

theorem int_frame (s : St) (t : Tok) : (s.int t).ub = s.ub ∧ (s.int t).buf = s.buf ∧ (s.int t).rq = s.rq ∧
    (s.int t).wq = s.wq ∧ (s.int t).closed = s.closed ∧ (s.int t).cap = s.cap ∧
    (∀ j d, (s.R j).direct = some d → ((s.int t).R j).direct = some d ∧ ((s.int t).R j).cancelled = (s.R j).cancelled) ∧
    (∀ j, (s.W j).direct = true → ((s.int t).W j).direct = true ∧ ((s.int t).W j).cancelled = (s.W j).cancelled ∧
      ((s.int t).W j).closedF = (s.W j).closedF) := by
  cases t with
  | r i =>
    simp only [St.int, St.intR]
    split
    · simp
    · split
      · simp
      · rename_i hd
        split
        · simp only [St.resumeR, upd_apply, if_true]
          split
          · simp [St.endR, upd_apply]; grind
          · simp [St.endR, upd_apply]; grind
        · simp [upd_apply]; grind
  | w i =>
    simp only [St.int, St.intW]
    split
    · simp
    · split
      · simp
      · rename_i hd
        split
        · simp only [St.resumeW, upd_apply, if_true]
          split
          · simp [St.endW, upd_apply]; grind
          · simp [St.endW, upd_apply]; grind
        · simp [upd_apply]; grind

theorem hits_frame (ts : List Tok) : ∀ s : St, (ts.foldl St.int s).ub = s.ub ∧ (ts.foldl St.int s).buf = s.buf ∧
    (ts.foldl St.int s).rq = s.rq ∧ (ts.foldl St.int s).wq = s.wq ∧ (ts.foldl St.int s).closed = s.closed ∧
    (ts.foldl St.int s).cap = s.cap ∧
    (∀ j d, (s.R j).direct = some d →
      ((ts.foldl St.int s).R j).direct = some d ∧ ((ts.foldl St.int s).R j).cancelled = (s.R j).cancelled) ∧
    (∀ j, (s.W j).direct = true → ((ts.foldl St.int s).W j).direct = true ∧
      ((ts.foldl St.int s).W j).cancelled = (s.W j).cancelled ∧
      ((ts.foldl St.int s).W j).closedF = (s.W j).closedF) := by
  induction ts with
  | nil => intro s; simp
  | cons t ts ih =>
    intro s
    have h1 := int_frame s t
    have h2 := ih (s.int t)
    simp only [List.foldl_cons]
    refine ⟨h2.1.trans h1.1, h2.2.1.trans h1.2.1, h2.2.2.1.trans h1.2.2.1, h2.2.2.2.1.trans h1.2.2.2.1,
      h2.2.2.2.2.1.trans h1.2.2.2.2.1, h2.2.2.2.2.2.1.trans h1.2.2.2.2.2.1, fun j d hj => ?_, fun j hj => ?_⟩
    · have a := h1.2.2.2.2.2.2.1 j d hj
      have b := h2.2.2.2.2.2.2.1 j d a.1
      exact ⟨b.1, b.2.trans a.2⟩
    · have a := h1.2.2.2.2.2.2.2 j hj
      have b := h2.2.2.2.2.2.2.2 j a.1
      exact ⟨b.1, b.2.1.trans a.2.1, b.2.2.trans a.2.2⟩

theorem wakeWriter_ub (s : St) : s.wakeWriter.ub = (s.ub || decide (∃ w, s.wq.head? = some w ∧ (s.W w).waiting = false ∧
    s.writeReady = true)) := by
  unfold St.wakeWriter
  cases hq : s.wq with
  | nil => simp
  | cons w rest =>
    simp only [St.writeReady]
    by_cases hr : (decide (s.buf.length ≠ s.cap) || s.closed) = true
    · rw [if_pos hr]
      simp only [Bool.or_eq_true, decide_eq_true_eq] at hr
      cases hw : (s.W w).waiting <;> simp [hw]; tauto
    · rw [if_neg hr]
      simp only [Bool.or_eq_true, decide_eq_true_eq] at hr
      simp; tauto

theorem wakeReader_ub (s : St) : s.wakeReader.ub = (s.ub || decide (∃ w, s.rq.head? = some w ∧ (s.R w).waiting = false ∧
    s.readReady = true)) := by
  unfold St.wakeReader
  cases hq : s.rq with
  | nil => simp
  | cons w rest =>
    simp only [St.readReady]
    by_cases hr : (decide (s.buf ≠ []) || s.closed) = true
    · rw [if_pos hr]
      simp only [Bool.or_eq_true, decide_eq_true_eq] at hr
      cases hw : (s.R w).waiting <;> simp [hw]; tauto
    · rw [if_neg hr]
      simp only [Bool.or_eq_true, decide_eq_true_eq] at hr
      simp; tauto

/-- The first operation in the queue has ended. -/
def StaleR (s : St) : Prop := ∃ j, s.rq.head? = some j ∧ (s.R j).status = .done
def StaleW (s : St) : Prop := ∃ j, s.wq.head? = some j ∧ (s.W j).status = .done

theorem staleR_iff {s : St} (h : WF s none) : StaleR s ↔ ∃ j, s.rq.head? = some j ∧ (s.R j).waiting = false := by
  unfold StaleR
  refine exists_congr fun j => and_congr_right fun hj => ?_
  have := (h.rlink j (List.mem_of_mem_head? (by rw [hj]; rfl))).2
  rcases this with ⟨a, b, -⟩ | ⟨a, b, -⟩ <;> simp [a, b]

theorem staleW_iff {s : St} (h : WF s none) : StaleW s ↔ ∃ j, s.wq.head? = some j ∧ (s.W j).waiting = false := by
  unfold StaleW
  refine exists_congr fun j => and_congr_right fun hj => ?_
  have := (h.wlink j (List.mem_of_mem_head? (by rw [hj]; rfl))).2.2
  rcases this with ⟨a, b, -⟩ | ⟨a, b, -⟩ <;> simp [a, b]

/-- Operations that are still to be awaited are as they were, or new. -/
structure Kept (s s' : St) : Prop where
  next : s'.nextW = s.nextW
  kept : ∀ i, i < s.nextW → (s'.W i).status = .fresh → (s.W i).status = .fresh ∧ (s'.W i).closedF = (s.W i).closedF

theorem Kept.refl (s : St) : Kept s s := ⟨rfl, fun _ _ h => ⟨h, rfl⟩⟩

theorem Kept.trans {s t u : St} (a : Kept s t) (b : Kept t u) : Kept s u := by
  refine ⟨b.next.trans a.next, fun i hi h => ?_⟩
  have h1 := b.kept i (by rw [a.next]; exact hi) h
  have h2 := a.kept i hi h1.1
  exact ⟨h2.1, h1.2.trans h2.2⟩

theorem Kept.same {s s' : St} (h1 : s'.nextW = s.nextW) (h2 : s'.W = s.W) : Kept s s' := by
  refine ⟨h1, fun i _ h => ?_⟩
  rw [h2] at h ⊢
  exact ⟨h, rfl⟩

theorem Kept.upd {s s' : St} {w : Nat} {x : WOp} (h1 : s'.nextW = s.nextW) (h2 : s'.W = upd s.W w x)
    (hx : x.status = .fresh → (s.W w).status = .fresh ∧ x.closedF = (s.W w).closedF) : Kept s s' := by
  refine ⟨h1, fun i _ h => ?_⟩
  rw [h2] at h ⊢
  simp only [upd_apply] at h ⊢
  split at h
  · rename_i e; subst e; simpa using hx h
  · rename_i e; simp [e, h]

theorem Kept.wakeWriter (s : St) : Kept s s.wakeWriter := by
  unfold St.wakeWriter
  split
  · exact Kept.refl s
  · dsimp only
    split
    · split
      · exact Kept.upd rfl rfl (by simp)
      · exact Kept.same rfl rfl
    · exact Kept.same rfl rfl

theorem Kept.wakeReader (s : St) : Kept s s.wakeReader := by
  unfold St.wakeReader
  split
  · exact Kept.refl s
  · dsimp only
    split
    · split <;> exact Kept.same rfl rfl
    · exact Kept.same rfl rfl

theorem Kept.endR (s : St) (i : Nat) (res : RRes) (b : List Nat) : Kept s { s.endR i res with buf := b } := Kept.same rfl rfl
theorem Kept.endR' (s : St) (i : Nat) (res : RRes) : Kept s (s.endR i res) := Kept.same rfl rfl

theorem Kept.endW (s : St) (i : Nat) (res : WRes) (b : List Nat) (a : Bool) :
    Kept s { s.endW i res with buf := b, asserted := a } := Kept.upd rfl rfl (by simp)
theorem Kept.endW' (s : St) (i : Nat) (res : WRes) : Kept s (s.endW i res) := Kept.upd rfl rfl (by simp)

theorem Kept.resumeR (s : St) (i : Nat) : Kept s (s.resumeR i) := by
  unfold St.resumeR
  split
  · exact Kept.endR' ..
  · split
    · exact Kept.endR' ..
    · split
      · exact Kept.same rfl rfl
      · exact (Kept.endR' ..).trans (Kept.wakeWriter _)
      · exact (Kept.endR ..).trans (Kept.wakeWriter _)
      · exact (Kept.endR ..).trans (Kept.wakeWriter _)

theorem Kept.resumeW (s : St) (i : Nat) : Kept s (s.resumeW i) := by
  unfold St.resumeW
  split
  · exact Kept.endW' ..
  · split
    · exact Kept.endW' ..
    · split
      · exact (Kept.endW' ..).trans (Kept.wakeReader _)
      · exact (Kept.endW ..).trans (Kept.wakeReader _)

theorem Kept.int (s : St) (t : Tok) : Kept s (s.int t) := by
  cases t with
  | r i =>
    simp only [St.int, St.intR]
    split
    · exact Kept.refl s
    · split
      · exact Kept.refl s
      · have h1 : Kept s { s with R := Chan.upd s.R i { s.R i with cancelled := true } } := Kept.same rfl rfl
        split
        · exact h1.trans (Kept.resumeR _ i)
        · exact h1
  | w i =>
    simp only [St.int, St.intW]
    split
    · exact Kept.refl s
    · split
      · exact Kept.refl s
      · have h1 : Kept s { s with W := Chan.upd s.W i { s.W i with cancelled := true } } :=
          Kept.upd rfl rfl (by simp)
        split
        · exact h1.trans (Kept.resumeW _ i)
        · exact h1

theorem Kept.hits (ts : List Tok) : ∀ s : St, Kept s (ts.foldl St.int s) := by
  induction ts with
  | nil => exact Kept.refl
  | cons t ts ih => exact fun s => (Kept.int s t).trans (ih _)

theorem Kept.step {s : St} (h : WF s none) (e : Ev) (he : e ≠ .mkW) : Kept s (s.step e) := by
  unfold St.step
  split
  · exact Kept.refl s
  · cases e with
    | mkR => exact Kept.same rfl rfl
    | mkW => exact absurd rfl he
    | awaitR i conn txn hits =>
      dsimp only
      rw [awaitR_eq]
      split
      · exact Kept.refl s
      · dsimp only
        have h0 : Kept s { s with log := s.log ++ [Obs.startR i] } := Kept.same rfl rfl
        split
        · exact h0.trans (Kept.resumeR _ i)
        · split
          · exact Kept.same rfl rfl
          · split
            · refine Kept.trans ?_ ((Kept.hits _ _).trans (Kept.resumeW _ _))
              refine ⟨rfl, fun k _ hf => ?_⟩
              simp only [St.takeFrom, St.handR, upd_apply] at hf ⊢
              grind
            · exact Kept.same rfl rfl
    | awaitW i conn txn hits =>
      dsimp only
      rw [awaitW_eq]
      split
      · exact Kept.refl s
      · dsimp only
        have h0 : Kept s { s with log := s.log ++ [Obs.startW i] } := Kept.same rfl rfl
        split
        · exact h0.trans (Kept.resumeW _ i)
        · split
          · exact Kept.upd rfl rfl (by simp)
          · split
            · refine Kept.trans ?_ ((Kept.hits _ _).trans (Kept.resumeR _ _))
              refine ⟨rfl, fun k _ hf => ?_⟩
              simp only [St.giveTo, St.handW, upd_apply] at hf ⊢
              grind
            · exact Kept.same rfl rfl
    | run k =>
      dsimp only
      unfold St.run
      split
      · exact Kept.refl s
      · exact Kept.trans (t := { s with posted := s.posted.eraseIdx k }) (Kept.same rfl rfl) (Kept.resumeR ..)
      · exact Kept.trans (t := { s with posted := s.posted.eraseIdx k }) (Kept.same rfl rfl) (Kept.resumeW ..)
    | cancelR i =>
      dsimp only
      unfold St.cancelR
      split <;> exact Kept.same rfl rfl
    | cancelW i =>
      dsimp only
      unfold St.cancelW
      split
      · exact Kept.upd rfl rfl (by simp)
      · exact Kept.refl s
    | intR i => exact Kept.int s (.r i)
    | intW i => exact Kept.int s (.w i)
    | dropR i =>
      dsimp only
      unfold St.dropR
      split <;> exact Kept.same rfl rfl
    | dropW i =>
      dsimp only
      unfold St.dropW
      split
      · exact Kept.upd rfl rfl (by simp)
      · exact Kept.refl s
    | close =>
      refine ⟨rfl, fun i _ hf => ?_⟩
      simp only [St.close] at hf ⊢
      by_cases hm : i ∈ s.wq
      · have := (h.wlink i hm).2.2
        rw [if_pos hm] at hf
        dsimp only at hf
        rw [hf] at this
        simp at this
      · rw [if_neg hm] at hf ⊢
        exact ⟨hf, rfl⟩

theorem step_mkW {s : St} (hu : s.ub = false) :
    s.step .mkW = { s with nextW := s.nextW + 1, W := upd s.W s.nextW { status := .fresh, closedF := s.closed } } := by
  simp [St.step, hu]

/-- Since the channel was closed: operations made before are as they were, those made since are marked. -/
structure Since (s s' : St) : Prop where
  le : s.nextW ≤ s'.nextW
  old : ∀ i, i < s.nextW → (s'.W i).status = .fresh → (s.W i).status = .fresh ∧ (s'.W i).closedF = (s.W i).closedF
  new : ∀ i, s.nextW ≤ i → i < s'.nextW → (s'.W i).status = .fresh → (s'.W i).closedF = true

theorem Since.steps (es : List Ev) : ∀ {s t : St}, Since s t → WF t none → TK t none → t.closed = true → t.ub = false →
    Since s (t.steps es) := by
  induction es with
  | nil => exact fun h _ _ _ _ => h
  | cons e es ih =>
    intro s t h w k hc hu
    obtain ⟨h1, t1, c1, u1⟩ := closed_steps_wf [e] w k hc hu
    refine ih ?_ h1 t1 c1 u1
    show Since s (t.step e)
    by_cases he : e = .mkW
    · subst he
      rw [step_mkW hu]
      refine ⟨Nat.le_succ_of_le h.le, fun i hi hf => ?_, fun i hi hi' hf => ?_⟩
      · have hne : i ≠ t.nextW := by have := h.le; omega
        simp only [upd_apply, hne, if_false] at hf ⊢
        exact h.old i hi hf
      · by_cases hne : i = t.nextW
        · simp [upd_apply, hne, hc]
        · simp only [upd_apply, hne, if_false] at hf ⊢
          simp only at hi'
          exact h.new i hi (by omega) hf
    · have kp := Kept.step w e he
      refine ⟨by rw [kp.next]; exact h.le, fun i hi hf => ?_, fun i hi hi' hf => ?_⟩
      · have a := kp.kept i (Nat.lt_of_lt_of_le hi h.le) hf
        have b := h.old i hi a.1
        exact ⟨b.1, a.2.trans b.2⟩
      · rw [kp.next] at hi'
        have a := kp.kept i hi' hf
        rw [a.2]
        exact h.new i hi hi' a.1

theorem pushBack_eq (cap : Nat) (b : List Nat) (x : Nat) (h : b.length ≤ cap) :
    pushBack cap b x = (b ++ [x]).drop (b.length + 1 - cap) := by
  unfold pushBack
  split
  · rename_i h0
    subst h0
    have : b = [] := List.length_eq_zero_iff.mp (by omega)
    simp [this]
  · split
    · rename_i h0 h1
      have e : b.length + 1 - cap = 1 := by omega
      rw [e]
      cases b with
      | nil => simp at h1; omega
      | cons y ys => simp
    · have e : b.length + 1 - cap = 0 := by omega
      rw [e]; rfl

end Cobalt.Chan
