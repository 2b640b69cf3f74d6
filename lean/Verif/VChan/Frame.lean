import Verif.VChan.NoUb
/-! Helper: what no step changes, and what the log gains. -/
namespace Cobalt.VChan

open Chan (Status Tok upd)

theorem wakeWriter_log (s : St) : s.wakeWriter.log = s.log ∧ s.wakeWriter.limit = s.limit := by
  unfold St.wakeWriter; split
  · exact ⟨rfl, rfl⟩
  · dsimp only; split
    · split <;> exact ⟨rfl, rfl⟩
    · exact ⟨rfl, rfl⟩

theorem wakeReader_log (s : St) : s.wakeReader.log = s.log ∧ s.wakeReader.limit = s.limit := by
  unfold St.wakeReader; split
  · exact ⟨rfl, rfl⟩
  · dsimp only; split
    · split <;> exact ⟨rfl, rfl⟩
    · exact ⟨rfl, rfl⟩

theorem resumeR_log (s : St) (i : Nat) : (s.resumeR i).limit = s.limit ∧
    (s.resumeR i).log = s.log ++ [.doneR i (if s.closed then .brokenPipe else
      if (s.R i).cancelled then .aborted else .ok)] := by
  unfold St.resumeR
  split
  · simp [St.endR, *]
  · split
    · simp [St.endR, *]
    · split <;> simp [St.endR, wakeWriter_log, *]

theorem resumeW_log (s : St) (i : Nat) : (s.resumeW i).limit = s.limit ∧
    (s.resumeW i).log = s.log ++ [.doneW i (if (s.W i).closedF then .brokenPipe else
      if (s.W i).cancelled then .aborted else .ok)] := by
  unfold St.resumeW
  split
  · simp [St.endW, *]
  · split
    · simp [St.endW, *]
    · split <;> simp [St.endW, wakeReader_log, *]

theorem int_log (s : St) (t : Tok) : (s.int t).limit = s.limit ∧
    reads (s.int t).log = reads s.log := by
  cases t with
  | r i =>
    simp only [St.int, intR_eq]; split
    · exact ⟨rfl, rfl⟩
    · split
      · simp only [St.endR, reads_snoc]; cases s.closed <;> simp
      · exact ⟨rfl, rfl⟩
  | w i =>
    simp only [St.int, intW_eq]; split
    · exact ⟨rfl, rfl⟩
    · split
      · simp only [St.endW, reads_snoc]; simp
      · exact ⟨rfl, rfl⟩

theorem hits_log (ts : List Tok) (s : St) : (ts.foldl St.int s).limit = s.limit ∧
    reads (ts.foldl St.int s).log = reads s.log := by
  induction ts generalizing s with
  | nil => exact ⟨rfl, rfl⟩
  | cons t ts ih =>
    rw [List.foldl_cons, (ih _).1, (ih _).2]; exact int_log s t

theorem step_log (s : St) (e : Ev) : (s.step e).limit = s.limit ∧
    (s.closed = true → reads (s.step e).log = reads s.log) := by
  have hR : ∀ (t : St) i, t.closed = true → reads (t.resumeR i).log = reads t.log := by
    intro t i hc; rw [(resumeR_log t i).2, reads_snoc, if_pos hc]; simp
  have hW : ∀ (t : St) i, reads (t.resumeW i).log = reads t.log := by
    intro t i; rw [(resumeW_log t i).2, reads_snoc]; simp
  unfold St.step
  split
  · exact ⟨rfl, fun _ => rfl⟩
  · cases e with
    | mkR => exact ⟨rfl, fun _ => rfl⟩
    | mkW => exact ⟨rfl, fun _ => rfl⟩
    | awaitR i c t l =>
      dsimp only; rw [awaitR_eq]; split
      · exact ⟨rfl, fun _ => rfl⟩
      · split
        · exact ⟨(resumeR_log _ _).1, hR _ _⟩
        · split
          · exact ⟨rfl, fun _ => rfl⟩
          · split
            · rw [(resumeW_log _ _).1, hW, (hits_log _ _).1, (hits_log _ _).2]; exact ⟨rfl, fun _ => rfl⟩
            · exact ⟨rfl, fun _ => rfl⟩
    | awaitW i c t l =>
      dsimp only; rw [awaitW_eq]; split
      · exact ⟨rfl, fun _ => rfl⟩
      · split
        · exact ⟨(resumeW_log _ _).1, fun _ => hW _ _⟩
        · split
          · exact ⟨rfl, fun _ => rfl⟩
          · split
            · refine ⟨?_, fun hc => ?_⟩
              · rw [(resumeR_log _ _).1, (hits_log _ _).1]; rfl
              · rw [hR _ _ (by rw [closed_hits]; exact hc), (hits_log _ _).2]; rfl
            · exact ⟨rfl, fun _ => rfl⟩
    | run k =>
      dsimp only; unfold St.run; split
      · exact ⟨rfl, fun _ => rfl⟩
      · exact ⟨(resumeR_log _ _).1, fun hc => hR _ _ hc⟩
      · exact ⟨(resumeW_log _ _).1, fun _ => hW _ _⟩
    | cancelR i => dsimp only; unfold St.cancelR; split <;> exact ⟨rfl, fun _ => rfl⟩
    | cancelW i => dsimp only; unfold St.cancelW; split <;> exact ⟨rfl, fun _ => rfl⟩
    | intR i => exact ⟨(int_log s (.r i)).1, fun _ => (int_log s (.r i)).2⟩
    | intW i => exact ⟨(int_log s (.w i)).1, fun _ => (int_log s (.w i)).2⟩
    | dropR i => dsimp only; unfold St.dropR; split <;> exact ⟨rfl, fun _ => rfl⟩
    | dropW i => dsimp only; unfold St.dropW; split <;> exact ⟨rfl, fun _ => rfl⟩
    | close => exact ⟨rfl, fun _ => rfl⟩

theorem limit_steps (es : List Ev) (s : St) : (s.steps es).limit = s.limit := by
  induction es generalizing s with
  | nil => rfl
  | cons e es ih =>
    have : s.steps (e :: es) = (s.step e).steps es := rfl
    rw [this, ih]; exact (step_log s e).1

theorem closed_step' {s : St} (e : Ev) (h : s.closed = true) : (s.step e).closed = true := by
  by_cases hc : (s.step e).closed = true
  · exact hc
  · have := open_step e (by simpa using hc); rw [h] at this; cases this

theorem reads_closed {s : St} (h : s.closed = true) (es : List Ev) :
    reads (s.steps es).log = reads s.log := by
  induction es generalizing s with
  | nil => rfl
  | cons e es ih =>
    have : s.steps (e :: es) = (s.step e).steps es := rfl
    rw [this, ih (closed_step' e h)]; exact (step_log s e).2 h

/-- Write `i` was waiting when the channel was closed: it keeps this, and can end with `broken_pipe` only. -/
def Piped (i : Nat) (s s' : St) : Prop := (s.W i).closedF = true → (s'.W i).closedF = true ∧
  ∀ res, Obs.doneW i res ∈ s'.log → Obs.doneW i res ∈ s.log ∨ res = .brokenPipe

theorem Piped.refl (i : Nat) (s : St) : Piped i s s := fun h => ⟨h, fun _ h => Or.inl h⟩

theorem Piped.trans {i : Nat} {s s' s'' : St} (h : Piped i s s') (h' : Piped i s' s'') : Piped i s s'' := by
  intro hc
  obtain ⟨a, b⟩ := h hc
  obtain ⟨c, d⟩ := h' a
  refine ⟨c, fun res hr => ?_⟩
  rcases d res hr with hr | hr
  · exact b res hr
  · exact Or.inr hr

theorem Piped.wakeWriter (i : Nat) (s : St) : Piped i s s.wakeWriter := by
  unfold Piped St.wakeWriter
  split
  · exact Piped.refl i s
  · dsimp only
    split
    · split <;> grind
    · grind

theorem Piped.wakeReader (i : Nat) (s : St) : Piped i s s.wakeReader := by
  unfold Piped St.wakeReader
  split
  · exact Piped.refl i s
  · dsimp only
    split
    · split <;> grind
    · grind

theorem Piped.resumeR (i : Nat) (s : St) (j : Nat) : Piped i s (s.resumeR j) := by
  unfold St.resumeR
  split
  · unfold Piped St.endR; grind
  · split
    · unfold Piped St.endR; grind
    · split
      all_goals
        refine Piped.trans ?_ (Piped.wakeWriter i _)
        unfold Piped St.endR; grind

theorem Piped.resumeW (i : Nat) (s : St) (j : Nat) : Piped i s (s.resumeW j) := by
  unfold St.resumeW
  split
  · unfold Piped St.endW; grind
  · split
    · unfold Piped St.endW; grind
    · split
      all_goals
        refine Piped.trans ?_ (Piped.wakeReader i _)
        unfold Piped St.endW; grind

theorem Piped.int (i : Nat) (s : St) (t : Tok) : Piped i s (s.int t) := by
  cases t with
  | r j =>
    simp only [St.int, intR_eq]; split
    · exact Piped.refl i s
    · split <;> (unfold Piped; try unfold St.endR) <;> grind
  | w j =>
    simp only [St.int, intW_eq]; split
    · exact Piped.refl i s
    · split <;> (unfold Piped; try unfold St.endW) <;> grind

theorem Piped.hits (i : Nat) (ts : List Tok) : ∀ (s : St), Piped i s (ts.foldl St.int s) := by
  induction ts with
  | nil => exact Piped.refl i
  | cons t ts ih => exact fun s => (Piped.int i s t).trans (ih _)

theorem Piped.step {s : St} (hw : WF s none) (i : Nat) (e : Ev) : Piped i s (s.step e) := by
  unfold St.step
  split
  · exact Piped.refl i s
  · cases e with
    | mkR => unfold Piped; grind
    | mkW =>
      have h1 := hw.wnew s.nextW (Nat.le_refl _)
      unfold Piped; grind
    | awaitR j c t l =>
      dsimp only; rw [awaitR_eq]; split
      · exact Piped.refl i s
      · split
        · exact Piped.resumeR i s j
        · split
          · unfold Piped St.queueR; grind
          · split
            · refine Piped.trans ?_ ((Piped.hits i _ _).trans (Piped.resumeW i _ _))
              unfold Piped St.handR St.takeFrom; grind
            · unfold Piped; grind
    | awaitW j c t l =>
      dsimp only; rw [awaitW_eq]; split
      · exact Piped.refl i s
      · split
        · exact Piped.resumeW i s j
        · split
          · unfold Piped St.queueW; grind
          · split
            · refine Piped.trans ?_ ((Piped.hits i _ _).trans (Piped.resumeR i _ _))
              unfold Piped St.handW St.giveTo; grind
            · unfold Piped; grind
    | run k =>
      dsimp only; unfold St.run; split
      · exact Piped.refl i s
      · exact (Piped.resumeR i _ _ : Piped i { s with posted := s.posted.eraseIdx k } _)
      · exact (Piped.resumeW i _ _ : Piped i { s with posted := s.posted.eraseIdx k } _)
    | cancelR j => dsimp only; unfold St.cancelR Piped; split <;> grind
    | cancelW j => dsimp only; unfold St.cancelW Piped; split <;> grind
    | intR j => exact Piped.int i s (.r j)
    | intW j => exact Piped.int i s (.w j)
    | dropR j => dsimp only; unfold St.dropR Piped; split <;> grind
    | dropW j => dsimp only; unfold St.dropW Piped; split <;> grind
    | close => dsimp only; unfold St.close Piped; grind

end Cobalt.VChan
