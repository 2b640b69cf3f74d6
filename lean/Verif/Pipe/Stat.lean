import Verif.Pipe.Model
import Verif.Chan.ForLemmas
/-! Helper: how a step of a channel changes the states of its operations. -/
namespace Cobalt.Chan

/-- The states of operations change only by being awaited and by ending, which is in the log. -/
structure Stat (s s' : St) (m : List Obs) : Prop where
  log : s'.log = s.log ++ m
  starts : startsW m = []
  nR : s'.nextR = s.nextR
  nW : s'.nextW = s.nextW
  r : ∀ i, (s'.R i).status = (s.R i).status ∨ ((s'.R i).status = .done ∧ i ∈ endedR m) ∨
    ((s.R i).status = .fresh ∧ (s'.R i).status = .susp)
  w : ∀ i, (s'.W i).status = (s.W i).status ∨ ((s'.W i).status = .done ∧ i ∈ endedW m) ∨
    ((s.W i).status = .fresh ∧ (s'.W i).status = .susp)

theorem Stat.refl (s : St) : Stat s s [] := ⟨by simp, rfl, rfl, rfl, fun _ => .inl rfl, fun _ => .inl rfl⟩

theorem startsW_app (a b : List Obs) : startsW (a ++ b) = startsW a ++ startsW b := by simp [startsW]
theorem endedW_app (a b : List Obs) : endedW (a ++ b) = endedW a ++ endedW b := by simp [endedW]
theorem endedR_app (a b : List Obs) : endedR (a ++ b) = endedR a ++ endedR b := by simp [endedR]

theorem Stat.trans {s t u : St} {m m' : List Obs} (a : Stat s t m) (b : Stat t u m') : Stat s u (m ++ m') := by
  refine ⟨by rw [b.log, a.log, List.append_assoc], by rw [startsW_app, a.starts, b.starts]; rfl,
    b.nR.trans a.nR, b.nW.trans a.nW, fun i => ?_, fun i => ?_⟩
  · rw [endedR_app, List.mem_append]
    rcases b.r i with h | h | h <;> rcases a.r i with h' | h' | h' <;> simp_all
  · rw [endedW_app, List.mem_append]
    rcases b.w i with h | h | h <;> rcases a.w i with h' | h' | h' <;> simp_all

/-- Parts of steps that only change other things. -/
theorem Stat.quiet {s s' : St} (hl : s'.log = s.log) (nR : s'.nextR = s.nextR) (nW : s'.nextW = s.nextW)
    (r : ∀ i, (s'.R i).status = (s.R i).status ∨ ((s.R i).status = .fresh ∧ (s'.R i).status = .susp))
    (w : ∀ i, (s'.W i).status = (s.W i).status ∨ ((s.W i).status = .fresh ∧ (s'.W i).status = .susp)) :
    Stat s s' [] :=
  ⟨by simp [hl], rfl, nR, nW, fun i => (r i).imp_right .inr, fun i => (w i).imp_right .inr⟩

theorem Stat.endR (s : St) (i : Nat) (res : RRes) (bs : List Nat) :
    Stat s { s.endR i res with buf := bs } [.doneR i res] := by
  refine ⟨rfl, rfl, rfl, rfl, fun k => ?_, fun k => .inl rfl⟩
  by_cases h : k = i
  · subst h; right; left; simp [St.endR, upd, endedR]
  · left; simp [St.endR, upd, h]

theorem Stat.endW (s : St) (i : Nat) (res : WRes) (bs : List Nat) (a : Bool) :
    Stat s { s.endW i res with buf := bs, asserted := a } [.doneW i res] := by
  refine ⟨rfl, rfl, rfl, rfl, fun k => .inl rfl, fun k => ?_⟩
  by_cases h : k = i
  · subst h; right; left; simp [St.endW, upd, endedW]
  · left; simp [St.endW, upd, h]

theorem upd_status_R (f : Nat → ROp) (i : Nat) (x : ROp) (h : x.status = (f i).status) (k : Nat) :
    (upd f i x k).status = (f k).status := by
  rw [upd_apply]; split
  · subst_vars; exact h
  · rfl

theorem upd_status_W (f : Nat → WOp) (i : Nat) (x : WOp) (h : x.status = (f i).status) (k : Nat) :
    (upd f i x k).status = (f k).status := by
  rw [upd_apply]; split
  · subst_vars; exact h
  · rfl

theorem Stat.wakeWriter (s : St) : Stat s s.wakeWriter [] := by
  unfold St.wakeWriter
  split
  · exact .refl s
  · dsimp only
    split
    · split
      · exact .quiet rfl rfl rfl (fun _ => .inl rfl) fun k => .inl (by refine upd_status_W _ _ _ ?_ k; rfl)
      · exact .quiet rfl rfl rfl (fun _ => .inl rfl) fun _ => .inl rfl
    · exact .quiet rfl rfl rfl (fun _ => .inl rfl) fun _ => .inl rfl

theorem Stat.wakeReader (s : St) : Stat s s.wakeReader [] := by
  unfold St.wakeReader
  split
  · exact .refl s
  · dsimp only
    split
    · split
      · exact .quiet rfl rfl rfl (fun k => .inl (by refine upd_status_R _ _ _ ?_ k; rfl)) fun _ => .inl rfl
      · exact .quiet rfl rfl rfl (fun _ => .inl rfl) fun _ => .inl rfl
    · exact .quiet rfl rfl rfl (fun _ => .inl rfl) fun _ => .inl rfl

theorem Stat.resumeR (s : St) (i : Nat) : ∃ m, Stat s (s.resumeR i) m := by
  unfold St.resumeR
  split
  · exact ⟨_, .endR s i _ s.buf⟩
  · split
    · exact ⟨_, .endR s i _ s.buf⟩
    · split
      · exact ⟨_, .quiet rfl rfl rfl (fun _ => .inl rfl) fun _ => .inl rfl⟩
      · exact ⟨_, (Stat.endR s i _ s.buf).trans (.wakeWriter _)⟩
      · exact ⟨_, (Stat.endR s i _ _).trans (.wakeWriter _)⟩
      · exact ⟨_, (Stat.endR s i _ _).trans (.wakeWriter _)⟩

theorem Stat.resumeW (s : St) (i : Nat) : ∃ m, Stat s (s.resumeW i) m := by
  unfold St.resumeW
  split
  · exact ⟨_, .endW s i _ s.buf s.asserted⟩
  · split
    · exact ⟨_, .endW s i _ s.buf s.asserted⟩
    · split
      · exact ⟨_, (Stat.endW s i _ s.buf s.asserted).trans (.wakeReader _)⟩
      · exact ⟨_, (Stat.endW s i _ _ _).trans (.wakeReader _)⟩

theorem Stat.intR (s : St) (i : Nat) : ∃ m, Stat s (s.intR i) m := by
  unfold St.intR
  split
  · exact ⟨_, .refl s⟩
  · split
    · exact ⟨_, .refl s⟩
    · have h : Stat s { s with R := upd s.R i { s.R i with cancelled := true } } [] :=
        .quiet rfl rfl rfl (fun k => .inl (by refine upd_status_R _ _ _ ?_ k; rfl)) fun _ => .inl rfl
      dsimp only
      split
      · obtain ⟨m, hm⟩ := Stat.resumeR { s with R := upd s.R i { s.R i with cancelled := true } } i
        exact ⟨_, h.trans hm⟩
      · exact ⟨_, h⟩

theorem Stat.intW (s : St) (i : Nat) : ∃ m, Stat s (s.intW i) m := by
  unfold St.intW
  split
  · exact ⟨_, .refl s⟩
  · split
    · exact ⟨_, .refl s⟩
    · have h : Stat s { s with W := upd s.W i { s.W i with cancelled := true } } [] :=
        .quiet rfl rfl rfl (fun _ => .inl rfl) fun k => .inl (by refine upd_status_W _ _ _ ?_ k; rfl)
      dsimp only
      split
      · obtain ⟨m, hm⟩ := Stat.resumeW { s with W := upd s.W i { s.W i with cancelled := true } } i
        exact ⟨_, h.trans hm⟩
      · exact ⟨_, h⟩

/-- What others do. -/
theorem Stat.outer (s : St) {e : Ev} (he : Pipe.outer e = true) : ∃ m, Stat s (s.step e) m := by
  unfold St.step
  split
  · exact ⟨_, .refl s⟩
  · cases e with
    | run k =>
      dsimp only; unfold St.run
      split
      · exact ⟨_, .refl s⟩
      · obtain ⟨m, hm⟩ := Stat.resumeR { s with posted := s.posted.eraseIdx k } _
        exact ⟨m, hm.log, hm.starts, hm.nR, hm.nW, hm.r, hm.w⟩
      · obtain ⟨m, hm⟩ := Stat.resumeW { s with posted := s.posted.eraseIdx k } _
        exact ⟨m, hm.log, hm.starts, hm.nR, hm.nW, hm.r, hm.w⟩
    | cancelR i =>
      dsimp only; unfold St.cancelR
      split
      · exact ⟨_, .quiet rfl rfl rfl (fun k => .inl (by refine upd_status_R _ _ _ ?_ k; rfl)) fun _ => .inl rfl⟩
      · exact ⟨_, .refl s⟩
    | cancelW i =>
      dsimp only; unfold St.cancelW
      split
      · exact ⟨_, .quiet rfl rfl rfl (fun _ => .inl rfl) fun k => .inl (by refine upd_status_W _ _ _ ?_ k; rfl)⟩
      · exact ⟨_, .refl s⟩
    | intR i => exact Stat.intR s i
    | intW i => exact Stat.intW s i
    | close =>
      refine ⟨_, .quiet rfl rfl rfl (fun k => .inl ?_) fun k => .inl ?_⟩
      · simp only [St.close]; split <;> rfl
      · simp only [St.close]; split <;> rfl
    | _ => cases he

/-- An awaited read is no longer fresh, and what else happens is as above. -/
theorem Stat.awaitR (s : St) (i : Nat) (conn : Bool) (hf : (s.R i).status = .fresh) :
    (∃ m, Stat s (s.awaitR i conn false []) m) ∧
    ((s.awaitR i conn false []).ub = true ∨ ((s.awaitR i conn false []).R i).status ≠ .fresh) := by
  have h0 : Stat s { s with log := s.log ++ [Obs.startR i] } [.startR i] :=
    ⟨rfl, rfl, rfl, rfl, fun _ => .inl rfl, fun _ => .inl rfl⟩
  rw [awaitR_eq, if_neg (by simp [hf])]
  dsimp only
  split
  · obtain ⟨m, hm⟩ := Stat.resumeR { s with log := s.log ++ [Obs.startR i] } i
    refine ⟨⟨_, h0.trans hm⟩, ?_⟩
    have key : ∀ t : St, (t.resumeR i).ub = true ∨ ((t.resumeR i).R i).status ≠ .fresh := by
      intro t
      have hw : ∀ (t : St) (b : List Nat) (res : RRes),
          (({ t.endR i res with buf := b } : St).wakeWriter.R i).status ≠ .fresh := by
        intro t b res
        have := (Stat.wakeWriter { t.endR i res with buf := b }).r i
        have h1 : (({ t.endR i res with buf := b } : St).R i).status = .done := by simp [St.endR, upd]
        rw [h1] at this
        rcases this with h | h | h
        · rw [h]; decide
        · rw [h.1]; decide
        · cases h.1
      unfold St.resumeR
      split
      · right; simp [St.endR, upd]
      · split
        · right; simp [St.endR, upd]
        · split
          · left; rfl
          · right; exact hw t t.buf _
          · right; exact hw t _ _
          · right; exact hw t _ _
    exact key _
  · split
    · refine ⟨⟨_, h0.trans (.quiet rfl rfl rfl (fun k => ?_) fun _ => .inl rfl)⟩, .inr ?_⟩
      · simp only [St.queueR, upd_apply]
        split
        · right; subst_vars; exact ⟨hf, rfl⟩
        · left; rfl
      · simp [St.queueR, upd]
    · rename_i w _ _
      split
      · simp only [ite_self, List.foldl_nil]
        have h1 : Stat { s with log := s.log ++ [Obs.startR i] }
            ((({ s with log := s.log ++ [Obs.startR i] } : St).takeFrom i w false).handR i w) [] := by
          refine .quiet rfl rfl rfl (fun k => ?_) fun k => .inl ?_
          · simp only [St.takeFrom, St.handR, upd_apply]
            by_cases hk : k = i
            · subst hk; simp [hf]
            · simp [hk]
          · simp only [St.takeFrom, St.handR, upd_apply]
            by_cases hk : k = w
            · subst hk; simp
            · simp [hk]
        obtain ⟨m, hm⟩ := Stat.resumeW
          ((({ s with log := s.log ++ [Obs.startR i] } : St).takeFrom i w false).handR i w) w
        refine ⟨⟨_, (h0.trans h1).trans hm⟩, .inr ?_⟩
        have h2 : (((({ s with log := s.log ++ [Obs.startR i] } : St).takeFrom i w false).handR i w).R i).status
            = .susp := by simp [St.takeFrom, St.handR, upd]
        rcases hm.r i with h | h | h
        · rw [h, h2]; decide
        · rw [h.1]; decide
        · rw [h2] at h; cases h.1
      · exact ⟨⟨_, h0.trans (.quiet rfl rfl rfl (fun _ => .inl rfl) fun _ => .inl rfl)⟩, .inl rfl⟩

/-- The same for a write. -/
theorem Stat.awaitW (s : St) (i : Nat) (conn : Bool) (hf : (s.W i).status = .fresh) :
    (∃ m, Stat { s with log := s.log ++ [Obs.startW i] } (s.awaitW i conn false []) m) ∧
    ((s.awaitW i conn false []).ub = true ∨ ((s.awaitW i conn false []).W i).status ≠ .fresh) := by
  rw [awaitW_eq, if_neg (by simp [hf])]
  dsimp only
  split
  · obtain ⟨m, hm⟩ := Stat.resumeW { s with log := s.log ++ [Obs.startW i] } i
    refine ⟨⟨_, hm⟩, .inr ?_⟩
    have key : ∀ t : St, ((t.resumeW i).W i).status ≠ .fresh := by
      intro t
      have hw : ∀ (t : St) (b : List Nat) (a : Bool) (res : WRes),
          (({ t.endW i res with buf := b, asserted := a } : St).wakeReader.W i).status ≠ .fresh := by
        intro t b a res
        have := (Stat.wakeReader { t.endW i res with buf := b, asserted := a }).w i
        have h1 : (({ t.endW i res with buf := b, asserted := a } : St).W i).status = .done := by
          simp [St.endW, upd]
        rw [h1] at this
        rcases this with h | h | h
        · rw [h]; decide
        · rw [h.1]; decide
        · cases h.1
      unfold St.resumeW
      split
      · simp [St.endW, upd]
      · split
        · simp [St.endW, upd]
        · split
          · exact hw t t.buf t.asserted _
          · exact hw t _ _ _
    exact key _
  · split
    · refine ⟨⟨_, .quiet rfl rfl rfl (fun _ => .inl rfl) fun k => ?_⟩, .inr ?_⟩
      · simp only [St.queueW, upd_apply]
        split
        · right; subst_vars; exact ⟨hf, rfl⟩
        · left; rfl
      · simp [St.queueW, upd]
    · rename_i w _ _
      split
      · simp only [ite_self, List.foldl_nil]
        have h1 : Stat { s with log := s.log ++ [Obs.startW i] }
            ((({ s with log := s.log ++ [Obs.startW i] } : St).giveTo i w false).handW i w) [] := by
          refine .quiet rfl rfl rfl (fun k => .inl ?_) fun k => ?_
          · simp only [St.giveTo, St.handW, upd_apply]
            by_cases hk : k = w
            · subst hk; simp
            · simp [hk]
          · simp only [St.giveTo, St.handW, upd_apply]
            by_cases hk : k = i
            · subst hk; simp [hf]
            · simp [hk]
        obtain ⟨m, hm⟩ := Stat.resumeR
          ((({ s with log := s.log ++ [Obs.startW i] } : St).giveTo i w false).handW i w) w
        refine ⟨⟨_, h1.trans hm⟩, .inr ?_⟩
        have h2 : (((({ s with log := s.log ++ [Obs.startW i] } : St).giveTo i w false).handW i w).W i).status
            = .susp := by simp [St.giveTo, St.handW, upd]
        rcases hm.w i with h | h | h
        · rw [h, h2]; decide
        · rw [h.1]; decide
        · rw [h2] at h; cases h.1
      · exact ⟨⟨_, .quiet rfl rfl rfl (fun _ => .inl rfl) fun _ => .inl rfl⟩, .inl rfl⟩

end Cobalt.Chan
