import Verif.Chan.Queue
import Verif.Chan.RaceModel
import Verif.Chan.Persist
/-! Helper: the queues of a channel. -/
set_option linter.unusedSimpArgs false

namespace Cobalt.Chan

/-- The queue of reads, and which of them wait. -/
def St.rv (s : St) : QV := ⟨s.rq, fun i => (s.R i).waiting, fun i => !((s.R i).status == .fresh || (s.R i).status == .absent)⟩

theorem rv_wakeWriter (s : St) : s.wakeWriter.rv = s.rv := by
  unfold St.wakeWriter
  split
  · rfl
  · dsimp only
    split
    · split <;> rfl
    · rfl

theorem rv_wakeReader (s : St) : QV.Rel (fun _ => False) s.rv s.wakeReader.rv := by
  unfold St.wakeReader
  split
  · exact QV.Rel.refl _ _
  · rename_i x rest hq
    dsimp only
    split
    · split
      · refine QV.Rel.drop x (fun y hy => ?_) (Or.inr ?_) (Or.inl ?_) ?_ (Or.inr (Or.inr ?_))
        · simp only [St.rv, upd_apply]; rw [if_neg hy]
        · simp only [St.rv]; rw [hq]; simp
        · simp only [St.rv, upd_apply, if_true]
        · intro z hz; simp only [St.rv, St.endR, St.takeFrom, St.handR, St.giveTo, St.handW, upd_apply] at hz ⊢; (repeat' split) <;> simp_all
        · simp only [St.rv]; rw [hq]; rfl
      · exact QV.Rel.refl _ _
    · exact QV.Rel.refl _ _

theorem rv_endR (s : St) (x : Nat) (res : RRes) : QV.Rel (· = x) s.rv (s.endR x res).rv := by
  refine QV.Rel.drop x (fun y hy => ?_) (Or.inl rfl) (Or.inl ?_) ?_ (Or.inr (Or.inl rfl))
  · simp only [St.rv, St.endR, upd_apply]; rw [if_neg hy]
  · simp only [St.rv, St.endR, upd_apply, if_true]
  · intro z hz; simp only [St.rv, St.endR, St.takeFrom, St.handR, St.giveTo, St.handW, upd_apply] at hz ⊢; (repeat' split) <;> simp_all

theorem rv_resumeR (s : St) (x : Nat) : QV.Rel (· = x) s.rv (s.resumeR x).rv := by
  unfold St.resumeR
  split
  · exact rv_endR s x _
  · split
    · exact rv_endR s x _
    · split
      · exact QV.Rel.of_eq rfl
      all_goals
        refine (QV.Rel.trans (X' := fun _ => False) ?_ (QV.Rel.of_eq (rv_wakeWriter _)) (fun _ h _ => h) (fun _ h => h.elim))
        exact rv_endR s x .aborted

theorem rv_resumeW (s : St) (x : Nat) : QV.Rel (fun _ => False) s.rv (s.resumeW x).rv := by
  unfold St.resumeW
  split
  · exact QV.Rel.of_eq rfl
  · split
    · exact QV.Rel.of_eq rfl
    · split <;> exact (rv_wakeReader _).via rfl

theorem rv_int (s : St) (t : Tok) : QV.Rel (fun j => Tok.r j = t) s.rv (s.int t).rv := by
  cases t with
  | r x =>
    simp only [St.int, intR_eq]
    split
    · exact QV.Rel.refl _ _
    · split
      · refine QV.Rel.drop x (fun y hy => ?_) (Or.inl rfl) (Or.inl ?_) ?_ (Or.inr (Or.inl rfl))
        · simp only [St.rv, St.endR, upd_apply]; rw [if_neg hy, if_neg hy]
        · simp only [St.rv, St.endR, upd_apply, if_true]
        · intro z hz; simp only [St.rv, St.endR, St.takeFrom, St.handR, St.giveTo, St.handW, upd_apply] at hz ⊢; (repeat' split) <;> simp_all
      · refine QV.Rel.of_eq ?_
        simp only [St.rv, QV.mk.injEq, true_and]
        constructor <;> (funext y; simp only [upd_apply]; split <;> simp_all)
  | w x =>
    simp only [St.int, intW_eq]
    split
    · exact QV.Rel.refl _ _
    · split <;> exact QV.Rel.of_eq rfl

theorem rv_hits (ts : List Tok) : ∀ (s : St), QV.Rel (fun j => Tok.r j ∈ ts) s.rv (ts.foldl St.int s).rv := by
  induction ts with
  | nil => exact fun s => QV.Rel.refl _ _
  | cons t ts ih =>
    intro s
    exact (rv_int s t).trans (ih _) (fun j h _ => by rw [h]; exact List.mem_cons_self)
      (fun j h _ _ => List.mem_cons_of_mem _ h)

/-- What may overtake in this step. -/
def Ev.overR (e : Ev) (j : Nat) : Prop := Tok.r j ∈ e.names ∨ e = .close

theorem rv_step {s : St} (hw : WF s none) (e : Ev) :
    QV.Rel e.overR s.rv (s.step e).rv ∨ QV.Add s.rv (s.step e).rv := by
  unfold St.step
  split
  · exact Or.inl (QV.Rel.refl _ _)
  · cases e with
    | mkR =>
      refine Or.inl (QV.Rel.of_eq ?_)
      have h1 := hw.rnew s.nextR (Nat.le_refl _)
      simp only [St.rv, QV.mk.injEq, true_and]
      constructor <;> (funext y; simp only [upd_apply]; split <;> simp_all)
    | mkW => exact Or.inl (QV.Rel.of_eq rfl)
    | awaitR x c tx l =>
      dsimp only
      rw [awaitR_eq]
      split
      · exact Or.inl (QV.Rel.refl _ _)
      · rename_i hfr
        simp only [ne_eq, Decidable.not_not] at hfr
        have hnq : x ∉ s.rq := fun h => by rcases (hw.rlink x h).2 with h' | h' <;> (rw [hfr] at h'; cases h'.1)
        have hnw : (s.R x).waiting = false := by
          cases h : (s.R x).waiting with
          | false => rfl
          | true => exact absurd (hw.rwait x h).2 hnq
        try dsimp only
        split
        · exact Or.inl (((rv_resumeR _ x).weaken (fun j h _ => Or.inl (h ▸ List.mem_cons_self))).via rfl)
        · split
          · refine Or.inr ⟨x, hnq, rfl, hnw, ?_, ?_, fun y hy => ?_⟩
            · simp only [St.rv, St.queueR, upd_apply, if_true]
            · simp only [St.rv]; rw [hfr]; rfl
            · simp only [St.rv, St.queueR, upd_apply]; rw [if_neg hy]; exact ⟨rfl, rfl⟩
          · rename_i w rest hq
            split
            · left
              refine QV.Rel.trans (X := fun j => Tok.r j ∈ Ev.names (.awaitR x c tx l)) (X' := fun j => Tok.r j ∈ Ev.names (.awaitR x c tx l)) (Y := Ev.overR (.awaitR x c tx l)) (s' := St.rv (List.foldl St.int (St.handR (St.takeFrom _ x w tx) x w) _)) ?_ ((rv_resumeW _ w).weaken (fun _ h _ => h.elim)) (fun j h _ => Or.inl h) (fun j h _ _ => Or.inl h)
              refine QV.Rel.trans (X := fun j => Tok.r j ∈ Ev.names (.awaitR x c tx l)) (s' := St.rv (St.handR (St.takeFrom _ x w tx) x w)) ?_ (rv_hits _ _) (fun j h _ => h) (fun j h _ _ => ?_)
              · refine QV.Rel.drop x (fun y hy => ?_) (Or.inl rfl) (Or.inl ?_) ?_ (Or.inl ?_)
                · simp only [St.rv, St.takeFrom, St.handR, upd_apply]; rw [if_neg hy, if_neg hy]
                · simp only [St.rv, St.takeFrom, St.handR, upd_apply, if_true]
                · intro z hz; simp only [St.rv, St.endR, St.takeFrom, St.handR, St.giveTo, St.handW, upd_apply] at hz ⊢; (repeat' split) <;> simp_all
                · simp only [St.rv, St.takeFrom, St.handR, upd_apply, if_true]; exact hnw.symm
              · split at h
                · exact List.mem_cons_of_mem _ h
                · cases h
            · exact Or.inl (QV.Rel.of_eq rfl)
    | awaitW x c tx l =>
      left
      dsimp only
      rw [awaitW_eq]
      split
      · exact QV.Rel.refl _ _
      · try dsimp only
        split
        · exact ((rv_resumeW _ x).weaken (fun _ h _ => h.elim)).via rfl
        · split
          · exact QV.Rel.of_eq rfl
          · rename_i y rest hq
            split
            · have h0 : QV.Rel (fun _ => False) s.rv (St.rv (St.handW (St.giveTo ({ s with log := s.log ++ [Obs.startW x] } : St) x y tx) x y)) := by
                refine QV.Rel.drop y (fun z hz => ?_) (Or.inr rfl) (Or.inl ?_) ?_ (Or.inr (Or.inr ?_))
                · simp only [St.rv, St.giveTo, St.handW, upd_apply]; rw [if_neg hz, if_neg hz]
                · simp only [St.rv, St.giveTo, St.handW, upd_apply, if_true]
                · intro z hz; simp only [St.rv, St.endR, St.takeFrom, St.handR, St.giveTo, St.handW, upd_apply] at hz ⊢; (repeat' split) <;> simp_all
                · simp only [St.rv]; rw [show s.rq = _ from hq]; rfl
              have h1 : (St.rv (St.handW (St.giveTo ({ s with log := s.log ++ [Obs.startW x] } : St) x y tx) x y)).wt y = false := by
                simp only [St.rv, St.giveTo, St.handW, upd_apply, if_true]
              refine QV.Rel.trans (X' := fun j => Tok.r j ∈ Ev.names (.awaitW x c tx l)) h0 (QV.Rel.trans (rv_hits _ _) (rv_resumeR _ y) (fun j h _ => ?_) (fun j h h' _ => ?_)) (fun j h _ => h.elim) (fun j h _ _ => Or.inl h)
              · split at h
                · exact List.mem_cons_of_mem _ h
                · cases h
              · rw [h, h1] at h'; cases h'
            · exact QV.Rel.of_eq rfl
    | run k =>
      left
      dsimp only
      unfold St.run
      split
      · exact QV.Rel.refl _ _
      · rename_i x hk
        refine ((rv_resumeR _ x).weaken (fun j h hj => ?_)).via rfl
        subst h
        have := (hw.rpost j (List.mem_of_getElem? hk)).2.1
        exact absurd (show (s.R j).waiting = true from hj) (by rw [this]; simp)
      · exact ((rv_resumeW _ _).weaken (fun _ h _ => h.elim)).via rfl
    | cancelR x =>
      left
      dsimp only
      unfold St.cancelR
      split
      · refine QV.Rel.drop x (fun y hy => ?_) (Or.inr rfl) (Or.inl ?_) ?_ (Or.inr (Or.inl (Or.inl List.mem_cons_self)))
        · simp only [St.rv, upd_apply]; rw [if_neg hy]
        · simp only [St.rv, upd_apply, if_true]
        · intro z hz; simp only [St.rv, St.endR, St.takeFrom, St.handR, St.giveTo, St.handW, upd_apply] at hz ⊢; (repeat' split) <;> simp_all
      · exact QV.Rel.refl _ _
    | cancelW x =>
      left
      dsimp only
      unfold St.cancelW
      split <;> exact QV.Rel.of_eq rfl
    | intR x =>
      exact Or.inl ((rv_int s (.r x)).weaken (fun j h _ => Or.inl (by rw [h]; exact List.mem_cons_self)))
    | intW x =>
      exact Or.inl ((rv_int s (.w x)).weaken (fun j h _ => by cases h))
    | dropR x =>
      left
      dsimp only
      unfold St.dropR
      split
      · rename_i hs
        have hnw : (s.R x).waiting = false := by
          cases h : (s.R x).waiting with
          | false => rfl
          | true => have := (hw.rwait x h).1; rw [this] at hs; simp at hs
        refine QV.Rel.drop x (fun y hy => ?_) (Or.inr rfl) (Or.inl ?_) ?_ (Or.inl ?_)
        · simp only [St.rv, upd_apply]; rw [if_neg hy]
        · simp only [St.rv, upd_apply, if_true]; exact hnw
        · intro z hz; simp only [St.rv, St.endR, St.takeFrom, St.handR, St.giveTo, St.handW, upd_apply] at hz ⊢; (repeat' split) <;> simp_all
        · simp only [St.rv, upd_apply, if_true]
      · exact QV.Rel.refl _ _
    | dropW x =>
      left
      dsimp only
      unfold St.dropW
      split <;> exact QV.Rel.of_eq rfl
    | close =>
      left
      dsimp only
      have hd : ∀ y, (s.close.rv).wt y = false := by
        intro y
        simp only [St.rv, St.close]
        split
        · rfl
        · rename_i h
          cases h' : (s.R y).waiting with
          | false => rfl
          | true => exact absurd (hw.rwait y h').2 h
      intro _
      refine ⟨List.nodup_nil, fun y h => ?_, fun y _ _ h => ?_, fun _ _ h => (h (Or.inr rfl)).elim, fun y h => ?_⟩
      · rw [hd y] at h; cases h
      · rw [hd y] at h; cases h
      · simp only [St.rv, St.close] at h ⊢
        split <;> exact h

theorem rv_back (es : List Ev) : ∀ {s : St}, (s.ub = true ∨ WF s none) → ∀ i, s.rv.old i = true →
    ((s.steps es).R i).waiting = true → (s.R i).waiting = true := by
  induction es with
  | nil => exact fun _ _ _ h => h
  | cons e es ih =>
    intro s hw i ho hi
    rcases hw with hw | hw
    · have : s.step e = s := by unfold St.step; rw [if_pos hw]
      rw [show s.steps (e :: es) = (s.step e).steps es from rfl, this] at hi
      exact ih (Or.inl hw) i ho hi
    · rcases rv_step hw e with h | ⟨x, h1, h2, h3, h4, h6, h5⟩
      · obtain ⟨_, b, _, _, f⟩ := h hw.ndR
        exact b i (ih (WF.step hw e) i (f i ho) hi)
      · have hx : i ≠ x := by rintro rfl; rw [h6] at ho; cases ho
        have := ih (WF.step hw e) i (by rw [(h5 i hx).2]; exact ho) hi
        have h7 := (h5 i hx).1
        simp only [St.rv] at h7
        rw [← h7]; exact this

theorem rv_wt_old {s : St} (hw : s.ub = true ∨ WF s none) {i : Nat} (hu : s.ub = false) (h : (s.R i).waiting = true) :
    s.rv.old i = true ∧ i ∈ s.rq := by
  rcases hw with hw | hw
  · rw [hu] at hw; cases hw
  · obtain ⟨h1, h2⟩ := hw.rwait i h
    exact ⟨by simp only [St.rv]; rw [h1]; rfl, h2⟩

theorem rv_steps (es : List Ev) : ∀ {s : St}, (s.ub = true ∨ WF s none) → ∀ i j, [i, j].Sublist s.rq →
    (s.R j).waiting = true → (∀ e ∈ es, ¬e.overR j) → ((s.steps es).R i).waiting = true → (s.R i).waiting = true →
    ((s.steps es).R j).waiting = true := by
  induction es with
  | nil => exact fun _ _ _ _ h _ _ _ => h
  | cons e es ih =>
    intro s hw i j hs hj hn hi hi0
    rcases hw with hw | hw
    · have : s.step e = s := by unfold St.step; rw [if_pos hw]
      rw [show s.steps (e :: es) = (s.step e).steps es from rfl, this] at hi ⊢
      exact ih (Or.inl hw) i j hs hj (fun e' h' => hn e' (List.mem_cons_of_mem _ h')) hi hi0
    · have hi1 : ((s.step e).R i).waiting = true :=
        by
        rcases rv_step hw e with h | ⟨x, h1, h2, h3, h4, h6, h5⟩
        · obtain ⟨_, _, _, _, f⟩ := h hw.ndR
          exact rv_back es (WF.step hw e) i (f i (by simp only [St.rv]; rw [(hw.rwait i hi0).1]; rfl)) hi
        · have := (h5 i (by rintro rfl; exact h1 (hw.rwait i hi0).2)).1
          exact this.trans hi0
      have hiq := (hw.rwait i hi0).2
      have hjq := (hw.rwait j hj).2
      rcases rv_step hw e with h | ⟨x, h1, h2, h3, h4, h6, h5⟩
      · obtain ⟨_, _, c, d, _⟩ := h hw.ndR
        have hj1 := d i j (hn e List.mem_cons_self) hs hj hi1
        exact ih (WF.step hw e) i j (c i j hs hi1 hj1) hj1 (fun e' h' => hn e' (List.mem_cons_of_mem _ h')) hi hi1
      · have hj1 : ((s.step e).R j).waiting = true := by
          have := (h5 j (by rintro rfl; exact h1 hjq)).1
          exact this.trans hj
        refine ih (WF.step hw e) i j ?_ hj1 (fun e' h' => hn e' (List.mem_cons_of_mem _ h')) hi hi1
        rw [show (s.step e).rq = s.rq ++ [x] from h2]
        exact hs.trans (List.sublist_append_left _ _)

/-- Who comes later is later in the queue. -/
theorem rv_arrive (es : List Ev) : ∀ {s : St}, (s.ub = true ∨ WF s none) → ∀ i j, (s.R i).waiting = true →
    s.rv.old i = true → ((s.R j).waiting = true → [i, j].Sublist s.rq) → ((s.steps es).R i).waiting = true →
    ((s.steps es).R j).waiting = true → [i, j].Sublist (s.steps es).rq := by
  induction es with
  | nil => exact fun _ _ _ _ _ h _ hj => h hj
  | cons e es ih =>
    intro s hw i j hi0 ho hs hi hj
    rcases hw with hw | hw
    · have : s.step e = s := by unfold St.step; rw [if_pos hw]
      rw [show s.steps (e :: es) = (s.step e).steps es from rfl, this] at hi hj ⊢
      exact ih (Or.inl hw) i j hi0 ho hs hi hj
    · rcases rv_step hw e with h | ⟨x, h1, h2, h3, h4, h6, h5⟩
      · obtain ⟨_, b, c, _, f⟩ := h hw.ndR
        have hi1 := rv_back es (WF.step hw e) i (f i ho) hi
        exact ih (WF.step hw e) i j hi1 (f i ho) (fun hj1 => c i j (hs (b j hj1)) hi1 hj1) hi hj
      · have hx : i ≠ x := by rintro rfl; rw [h6] at ho; cases ho
        have hi1 : ((s.step e).R i).waiting = true := (h5 i hx).1.trans hi0
        refine ih (WF.step hw e) i j hi1 (by rw [(h5 i hx).2]; exact ho) (fun hj1 => ?_) hi hj
        rw [show (s.step e).rq = s.rq ++ [x] from h2]
        by_cases hjx : j = x
        · subst hjx
          have : [i].Sublist s.rq := List.singleton_sublist.mpr (hw.rwait i hi0).2
          exact this.append (List.Sublist.refl [j])
        · have h7 : (s.R j).waiting = true := (h5 j hjx).1.symm.trans hj1
          exact (hs h7).trans (List.sublist_append_left _ _)

/-- The queue of writes, and which of them wait. -/
def St.wv (s : St) : QV := ⟨s.wq, fun i => (s.W i).waiting, fun i => !((s.W i).status == .fresh || (s.W i).status == .absent)⟩

theorem wv_wakeReader (s : St) : s.wakeReader.wv = s.wv := by
  unfold St.wakeReader
  split
  · rfl
  · dsimp only
    split
    · split <;> rfl
    · rfl

theorem wv_wakeWriter (s : St) : QV.Rel (fun _ => False) s.wv s.wakeWriter.wv := by
  unfold St.wakeWriter
  split
  · exact QV.Rel.refl _ _
  · rename_i x rest hq
    dsimp only
    split
    · split
      · refine QV.Rel.drop x (fun y hy => ?_) (Or.inr ?_) (Or.inl ?_) ?_ (Or.inr (Or.inr ?_))
        · simp only [St.wv, upd_apply]; rw [if_neg hy]
        · simp only [St.wv]; rw [hq]; simp
        · simp only [St.wv, upd_apply, if_true]
        · intro z hz; simp only [St.wv, St.endW, St.giveTo, St.handW, St.takeFrom, St.handR, upd_apply] at hz ⊢; (repeat' split) <;> simp_all
        · simp only [St.wv]; rw [hq]; rfl
      · exact QV.Rel.refl _ _
    · exact QV.Rel.refl _ _

theorem wv_endW (s : St) (x : Nat) (res : WRes) : QV.Rel (· = x) s.wv (s.endW x res).wv := by
  refine QV.Rel.drop x (fun y hy => ?_) (Or.inl rfl) (Or.inl ?_) ?_ (Or.inr (Or.inl rfl))
  · simp only [St.wv, St.endW, upd_apply]; rw [if_neg hy]
  · simp only [St.wv, St.endW, upd_apply, if_true]
  · intro z hz; simp only [St.wv, St.endW, St.giveTo, St.handW, St.takeFrom, St.handR, upd_apply] at hz ⊢; (repeat' split) <;> simp_all

theorem wv_resumeW (s : St) (x : Nat) : QV.Rel (· = x) s.wv (s.resumeW x).wv := by
  unfold St.resumeW
  split
  · exact wv_endW s x _
  · split
    · exact wv_endW s x _
    · split
      all_goals
        refine (QV.Rel.trans (X' := fun _ => False) ?_ (QV.Rel.of_eq (wv_wakeReader _)) (fun _ h _ => h) (fun _ h => h.elim))
        exact wv_endW s x .aborted

theorem wv_resumeR (s : St) (x : Nat) : QV.Rel (fun _ => False) s.wv (s.resumeR x).wv := by
  unfold St.resumeR
  split
  · exact QV.Rel.of_eq rfl
  · split
    · exact QV.Rel.of_eq rfl
    · split
      · exact QV.Rel.of_eq rfl
      all_goals exact (wv_wakeWriter _).via rfl

theorem wv_int (s : St) (t : Tok) : QV.Rel (fun j => Tok.w j = t) s.wv (s.int t).wv := by
  cases t with
  | w x =>
    simp only [St.int, intW_eq]
    split
    · exact QV.Rel.refl _ _
    · split
      · refine QV.Rel.drop x (fun y hy => ?_) (Or.inl rfl) (Or.inl ?_) ?_ (Or.inr (Or.inl rfl))
        · simp only [St.wv, St.endW, upd_apply]; rw [if_neg hy, if_neg hy]
        · simp only [St.wv, St.endW, upd_apply, if_true]
        · intro z hz; simp only [St.wv, St.endW, St.giveTo, St.handW, St.takeFrom, St.handR, upd_apply] at hz ⊢; (repeat' split) <;> simp_all
      · refine QV.Rel.of_eq ?_
        simp only [St.wv, QV.mk.injEq, true_and]
        constructor <;> (funext y; simp only [upd_apply]; split <;> simp_all)
  | r x =>
    simp only [St.int, intR_eq]
    split
    · exact QV.Rel.refl _ _
    · split <;> exact QV.Rel.of_eq rfl

theorem wv_hits (ts : List Tok) : ∀ (s : St), QV.Rel (fun j => Tok.w j ∈ ts) s.wv (ts.foldl St.int s).wv := by
  induction ts with
  | nil => exact fun s => QV.Rel.refl _ _
  | cons t ts ih =>
    intro s
    exact (wv_int s t).trans (ih _) (fun j h _ => by rw [h]; exact List.mem_cons_self)
      (fun j h _ _ => List.mem_cons_of_mem _ h)

/-- What may overtake in this step. -/
def Ev.overW (e : Ev) (j : Nat) : Prop := Tok.w j ∈ e.names ∨ e = .close

theorem wv_step {s : St} (hw : WF s none) (e : Ev) :
    QV.Rel e.overW s.wv (s.step e).wv ∨ QV.Add s.wv (s.step e).wv := by
  unfold St.step
  split
  · exact Or.inl (QV.Rel.refl _ _)
  · cases e with
    | mkW =>
      refine Or.inl (QV.Rel.of_eq ?_)
      have h1 := hw.wnew s.nextW (Nat.le_refl _)
      simp only [St.wv, QV.mk.injEq, true_and]
      constructor <;> (funext y; simp only [upd_apply]; split <;> simp_all)
    | mkR => exact Or.inl (QV.Rel.of_eq rfl)
    | awaitW x c tx l =>
      dsimp only
      rw [awaitW_eq]
      split
      · exact Or.inl (QV.Rel.refl _ _)
      · rename_i hfr
        simp only [ne_eq, Decidable.not_not] at hfr
        have hnq : x ∉ s.wq := fun h => by rcases (hw.wlink x h).2.2 with h' | h' <;> (rw [hfr] at h'; cases h'.1)
        have hnw : (s.W x).waiting = false := by
          cases h : (s.W x).waiting with
          | false => rfl
          | true => exact absurd (hw.wwait x h).2 hnq
        try dsimp only
        split
        · exact Or.inl (((wv_resumeW _ x).weaken (fun j h _ => Or.inl (h ▸ List.mem_cons_self))).via rfl)
        · split
          · refine Or.inr ⟨x, hnq, rfl, hnw, ?_, ?_, fun y hy => ?_⟩
            · simp only [St.wv, St.queueW, upd_apply, if_true]
            · simp only [St.wv]; rw [hfr]; rfl
            · simp only [St.wv, St.queueW, upd_apply]; rw [if_neg hy]; exact ⟨rfl, rfl⟩
          · rename_i r rest hq
            split
            · left
              refine QV.Rel.trans (X := fun j => Tok.w j ∈ Ev.names (.awaitW x c tx l)) (X' := fun j => Tok.w j ∈ Ev.names (.awaitW x c tx l)) (Y := Ev.overW (.awaitW x c tx l)) (s' := St.wv (List.foldl St.int (St.handW (St.giveTo _ x r tx) x r) _)) ?_ ((wv_resumeR _ r).weaken (fun _ h _ => h.elim)) (fun j h _ => Or.inl h) (fun j h _ _ => Or.inl h)
              refine QV.Rel.trans (X := fun j => Tok.w j ∈ Ev.names (.awaitW x c tx l)) (s' := St.wv (St.handW (St.giveTo _ x r tx) x r)) ?_ (wv_hits _ _) (fun j h _ => h) (fun j h _ _ => ?_)
              · refine QV.Rel.drop x (fun y hy => ?_) (Or.inl rfl) (Or.inl ?_) ?_ (Or.inl ?_)
                · simp only [St.wv, St.giveTo, St.handW, upd_apply]; rw [if_neg hy, if_neg hy]
                · simp only [St.wv, St.giveTo, St.handW, upd_apply, if_true]
                · intro z hz; simp only [St.wv, St.endW, St.giveTo, St.handW, St.takeFrom, St.handR, upd_apply] at hz ⊢; (repeat' split) <;> simp_all
                · simp only [St.wv, St.giveTo, St.handW, upd_apply, if_true]; exact hnw.symm
              · split at h
                · exact List.mem_cons_of_mem _ h
                · cases h
            · exact Or.inl (QV.Rel.of_eq rfl)
    | awaitR x c tx l =>
      left
      dsimp only
      rw [awaitR_eq]
      split
      · exact QV.Rel.refl _ _
      · try dsimp only
        split
        · exact ((wv_resumeR _ x).weaken (fun _ h _ => h.elim)).via rfl
        · split
          · exact QV.Rel.of_eq rfl
          · rename_i y rest hq
            split
            · have h0 : QV.Rel (fun _ => False) s.wv (St.wv (St.handR (St.takeFrom ({ s with log := s.log ++ [Obs.startR x] } : St) x y tx) x y)) := by
                refine QV.Rel.drop y (fun z hz => ?_) (Or.inr rfl) (Or.inl ?_) ?_ (Or.inr (Or.inr ?_))
                · simp only [St.wv, St.takeFrom, St.handR, upd_apply]; rw [if_neg hz, if_neg hz]
                · simp only [St.wv, St.takeFrom, St.handR, upd_apply, if_true]
                · intro z hz; simp only [St.wv, St.endW, St.giveTo, St.handW, St.takeFrom, St.handR, upd_apply] at hz ⊢; (repeat' split) <;> simp_all
                · simp only [St.wv]; rw [show s.wq = _ from hq]; rfl
              have h1 : (St.wv (St.handR (St.takeFrom ({ s with log := s.log ++ [Obs.startR x] } : St) x y tx) x y)).wt y = false := by
                simp only [St.wv, St.takeFrom, St.handR, upd_apply, if_true]
              refine QV.Rel.trans (X' := fun j => Tok.w j ∈ Ev.names (.awaitR x c tx l)) h0 (QV.Rel.trans (wv_hits _ _) (wv_resumeW _ y) (fun j h _ => ?_) (fun j h h' _ => ?_)) (fun j h _ => h.elim) (fun j h _ _ => Or.inl h)
              · split at h
                · exact List.mem_cons_of_mem _ h
                · cases h
              · rw [h, h1] at h'; cases h'
            · exact QV.Rel.of_eq rfl
    | run k =>
      left
      dsimp only
      unfold St.run
      split
      · exact QV.Rel.refl _ _
      · exact ((wv_resumeR _ _).weaken (fun _ h _ => h.elim)).via rfl
      · rename_i x hk
        refine ((wv_resumeW _ x).weaken (fun j h hj => ?_)).via rfl
        subst h
        have := (hw.wpost j (List.mem_of_getElem? hk)).2.1
        exact absurd (show (s.W j).waiting = true from hj) (by rw [this]; simp)
    | cancelW x =>
      left
      dsimp only
      unfold St.cancelW
      split
      · refine QV.Rel.drop x (fun y hy => ?_) (Or.inr rfl) (Or.inl ?_) ?_ (Or.inr (Or.inl (Or.inl List.mem_cons_self)))
        · simp only [St.wv, upd_apply]; rw [if_neg hy]
        · simp only [St.wv, upd_apply, if_true]
        · intro z hz; simp only [St.wv, St.endW, St.giveTo, St.handW, St.takeFrom, St.handR, upd_apply] at hz ⊢; (repeat' split) <;> simp_all
      · exact QV.Rel.refl _ _
    | cancelR x =>
      left
      dsimp only
      unfold St.cancelR
      split <;> exact QV.Rel.of_eq rfl
    | intW x =>
      exact Or.inl ((wv_int s (.w x)).weaken (fun j h _ => Or.inl (by rw [h]; exact List.mem_cons_self)))
    | intR x =>
      exact Or.inl ((wv_int s (.r x)).weaken (fun j h _ => by cases h))
    | dropW x =>
      left
      dsimp only
      unfold St.dropW
      split
      · rename_i hs
        have hnw : (s.W x).waiting = false := by
          cases h : (s.W x).waiting with
          | false => rfl
          | true => have := (hw.wwait x h).1; rw [this] at hs; simp at hs
        refine QV.Rel.drop x (fun y hy => ?_) (Or.inr rfl) (Or.inl ?_) ?_ (Or.inl ?_)
        · simp only [St.wv, upd_apply]; rw [if_neg hy]
        · simp only [St.wv, upd_apply, if_true]; exact hnw
        · intro z hz; simp only [St.wv, St.endW, St.giveTo, St.handW, St.takeFrom, St.handR, upd_apply] at hz ⊢; (repeat' split) <;> simp_all
        · simp only [St.wv, upd_apply, if_true]
      · exact QV.Rel.refl _ _
    | dropR x =>
      left
      dsimp only
      unfold St.dropR
      split <;> exact QV.Rel.of_eq rfl
    | close =>
      left
      dsimp only
      have hd : ∀ y, (s.close.wv).wt y = false := by
        intro y
        simp only [St.wv, St.close]
        split
        · rfl
        · rename_i h
          cases h' : (s.W y).waiting with
          | false => rfl
          | true => exact absurd (hw.wwait y h').2 h
      intro _
      refine ⟨List.nodup_nil, fun y h => ?_, fun y _ _ h => ?_, fun _ _ h => (h (Or.inr rfl)).elim, fun y h => ?_⟩
      · rw [hd y] at h; cases h
      · rw [hd y] at h; cases h
      · simp only [St.wv, St.close] at h ⊢
        split <;> exact h

theorem wv_back (es : List Ev) : ∀ {s : St}, (s.ub = true ∨ WF s none) → ∀ i, s.wv.old i = true →
    ((s.steps es).W i).waiting = true → (s.W i).waiting = true := by
  induction es with
  | nil => exact fun _ _ _ h => h
  | cons e es ih =>
    intro s hw i ho hi
    rcases hw with hw | hw
    · have : s.step e = s := by unfold St.step; rw [if_pos hw]
      rw [show s.steps (e :: es) = (s.step e).steps es from rfl, this] at hi
      exact ih (Or.inl hw) i ho hi
    · rcases wv_step hw e with h | ⟨x, h1, h2, h3, h4, h6, h5⟩
      · obtain ⟨_, b, _, _, f⟩ := h hw.ndW
        exact b i (ih (WF.step hw e) i (f i ho) hi)
      · have hx : i ≠ x := by rintro rfl; rw [h6] at ho; cases ho
        have := ih (WF.step hw e) i (by rw [(h5 i hx).2]; exact ho) hi
        have h7 := (h5 i hx).1
        simp only [St.wv] at h7
        rw [← h7]; exact this

theorem wv_wt_old {s : St} (hw : s.ub = true ∨ WF s none) {i : Nat} (hu : s.ub = false) (h : (s.W i).waiting = true) :
    s.wv.old i = true ∧ i ∈ s.wq := by
  rcases hw with hw | hw
  · rw [hu] at hw; cases hw
  · obtain ⟨h1, h2⟩ := hw.wwait i h
    exact ⟨by simp only [St.wv]; rw [h1]; rfl, h2⟩

theorem wv_steps (es : List Ev) : ∀ {s : St}, (s.ub = true ∨ WF s none) → ∀ i j, [i, j].Sublist s.wq →
    (s.W j).waiting = true → (∀ e ∈ es, ¬e.overW j) → ((s.steps es).W i).waiting = true → (s.W i).waiting = true →
    ((s.steps es).W j).waiting = true := by
  induction es with
  | nil => exact fun _ _ _ _ h _ _ _ => h
  | cons e es ih =>
    intro s hw i j hs hj hn hi hi0
    rcases hw with hw | hw
    · have : s.step e = s := by unfold St.step; rw [if_pos hw]
      rw [show s.steps (e :: es) = (s.step e).steps es from rfl, this] at hi ⊢
      exact ih (Or.inl hw) i j hs hj (fun e' h' => hn e' (List.mem_cons_of_mem _ h')) hi hi0
    · have hi1 : ((s.step e).W i).waiting = true :=
        by
        rcases wv_step hw e with h | ⟨x, h1, h2, h3, h4, h6, h5⟩
        · obtain ⟨_, _, _, _, f⟩ := h hw.ndW
          exact wv_back es (WF.step hw e) i (f i (by simp only [St.wv]; rw [(hw.wwait i hi0).1]; rfl)) hi
        · have := (h5 i (by rintro rfl; exact h1 (hw.wwait i hi0).2)).1
          exact this.trans hi0
      have hiq := (hw.wwait i hi0).2
      have hjq := (hw.wwait j hj).2
      rcases wv_step hw e with h | ⟨x, h1, h2, h3, h4, h6, h5⟩
      · obtain ⟨_, _, c, d, _⟩ := h hw.ndW
        have hj1 := d i j (hn e List.mem_cons_self) hs hj hi1
        exact ih (WF.step hw e) i j (c i j hs hi1 hj1) hj1 (fun e' h' => hn e' (List.mem_cons_of_mem _ h')) hi hi1
      · have hj1 : ((s.step e).W j).waiting = true := by
          have := (h5 j (by rintro rfl; exact h1 hjq)).1
          exact this.trans hj
        refine ih (WF.step hw e) i j ?_ hj1 (fun e' h' => hn e' (List.mem_cons_of_mem _ h')) hi hi1
        rw [show (s.step e).wq = s.wq ++ [x] from h2]
        exact hs.trans (List.sublist_append_left _ _)

/-- Who comes later is later in the queue. -/
theorem wv_arrive (es : List Ev) : ∀ {s : St}, (s.ub = true ∨ WF s none) → ∀ i j, (s.W i).waiting = true →
    s.wv.old i = true → ((s.W j).waiting = true → [i, j].Sublist s.wq) → ((s.steps es).W i).waiting = true →
    ((s.steps es).W j).waiting = true → [i, j].Sublist (s.steps es).wq := by
  induction es with
  | nil => exact fun _ _ _ _ _ h _ hj => h hj
  | cons e es ih =>
    intro s hw i j hi0 ho hs hi hj
    rcases hw with hw | hw
    · have : s.step e = s := by unfold St.step; rw [if_pos hw]
      rw [show s.steps (e :: es) = (s.step e).steps es from rfl, this] at hi hj ⊢
      exact ih (Or.inl hw) i j hi0 ho hs hi hj
    · rcases wv_step hw e with h | ⟨x, h1, h2, h3, h4, h6, h5⟩
      · obtain ⟨_, b, c, _, f⟩ := h hw.ndW
        have hi1 := wv_back es (WF.step hw e) i (f i ho) hi
        exact ih (WF.step hw e) i j hi1 (f i ho) (fun hj1 => c i j (hs (b j hj1)) hi1 hj1) hi hj
      · have hx : i ≠ x := by rintro rfl; rw [h6] at ho; cases ho
        have hi1 : ((s.step e).W i).waiting = true := (h5 i hx).1.trans hi0
        refine ih (WF.step hw e) i j hi1 (by rw [(h5 i hx).2]; exact ho) (fun hj1 => ?_) hi hj
        rw [show (s.step e).wq = s.wq ++ [x] from h2]
        by_cases hjx : j = x
        · subst hjx
          have : [i].Sublist s.wq := List.singleton_sublist.mpr (hw.wwait i hi0).2
          exact this.append (List.Sublist.refl [j])
        · have h7 : (s.W j).waiting = true := (h5 j hjx).1.symm.trans hj1
          exact (hs h7).trans (List.sublist_append_left _ _)

theorem rv_keep (es : List Ev) : ∀ {s : St}, (s.ub = true ∨ WF s none) → ∀ i, s.rv.old i = true →
    (s.steps es).rv.old i = true := by
  induction es with
  | nil => exact fun _ _ h => h
  | cons e es ih =>
    intro s hw i ho
    rcases hw with hw | hw
    · have : s.step e = s := by unfold St.step; rw [if_pos hw]
      rw [show s.steps (e :: es) = (s.step e).steps es from rfl, this]
      exact ih (Or.inl hw) i ho
    · rcases rv_step hw e with h | ⟨x, h1, h2, h3, h4, h6, h5⟩
      · obtain ⟨_, _, _, _, f⟩ := h hw.ndR
        exact ih (WF.step hw e) i (f i ho)
      · have hx : i ≠ x := by rintro rfl; rw [h6] at ho; cases ho
        exact ih (WF.step hw e) i (by rw [(h5 i hx).2]; exact ho)

theorem wv_keep (es : List Ev) : ∀ {s : St}, (s.ub = true ∨ WF s none) → ∀ i, s.wv.old i = true →
    (s.steps es).wv.old i = true := by
  induction es with
  | nil => exact fun _ _ h => h
  | cons e es ih =>
    intro s hw i ho
    rcases hw with hw | hw
    · have : s.step e = s := by unfold St.step; rw [if_pos hw]
      rw [show s.steps (e :: es) = (s.step e).steps es from rfl, this]
      exact ih (Or.inl hw) i ho
    · rcases wv_step hw e with h | ⟨x, h1, h2, h3, h4, h6, h5⟩
      · obtain ⟨_, _, _, _, f⟩ := h hw.ndW
        exact ih (WF.step hw e) i (f i ho)
      · have hx : i ≠ x := by rintro rfl; rw [h6] at ho; cases ho
        exact ih (WF.step hw e) i (by rw [(h5 i hx).2]; exact ho)

end Cobalt.Chan
