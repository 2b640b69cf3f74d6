import Verif.Chan.Handed
/-! Helper: a closed channel. -/
namespace Cobalt.Chan

theorem closed_wakeWriter {s : St} (hq : s.wq = []) : s.wakeWriter = s := by
  unfold St.wakeWriter; simp [hq]
theorem closed_wakeReader {s : St} (hq : s.rq = []) : s.wakeReader = s := by
  unfold St.wakeReader; simp [hq]

/-- What the end of a read gives on a closed channel. -/
def closedRes (s : St) (i : Nat) : RRes :=
  if (s.R i).direct.isNone ∧ s.buf = [] then .brokenPipe
  else if (s.R i).cancelled then .aborted
  else match s.buf, (s.R i).direct with
    | b :: _, _ => .value b
    | [], some d => .value d
    | [], none => .brokenPipe

/-- The buffer after that. -/
def closedBuf (s : St) (i : Nat) : List Nat :=
  if (s.R i).cancelled then s.buf
  else match s.buf, (s.R i).direct with
    | _ :: bs, none => bs
    | _ :: bs, some d => pushBack s.cap bs d
    | [], _ => []

theorem closed_resumeR {s : St} {i : Nat} (hc : s.closed = true) (hq : s.wq = []) :
    s.resumeR i = { s.endR i (closedRes s i) with buf := closedBuf s i } := by
  unfold St.resumeR closedRes closedBuf
  rcases hb : s.buf with _ | ⟨b, bs⟩ <;> rcases hd : (s.R i).direct with _ | d <;>
    rcases hca : (s.R i).cancelled <;> simp [hc, St.endR, hb] <;> exact closed_wakeWriter hq

theorem closed_resumeW {s : St} {i : Nat} (hq : s.rq = []) :
    ∃ res b a, s.resumeW i = { s.endW i res with buf := b, asserted := a } ∧
      (res ≠ .ok → b = s.buf ∧ a = s.asserted) := by
  have hw : ∀ (r : WRes) (b : List Nat) (a : Bool), ({ s.endW i r with buf := b, asserted := a } : St).wakeReader = { s.endW i r with buf := b, asserted := a } :=
    fun r b a => closed_wakeReader hq
  unfold St.resumeW
  split
  · exact ⟨_, s.buf, s.asserted, rfl, by simp⟩
  · split
    · exact ⟨_, s.buf, s.asserted, rfl, by simp⟩
    · split
      · exact ⟨.ok, s.buf, s.asserted, hw _ _ _, by simp⟩
      · exact ⟨.ok, _, _, hw _ _ _, by simp⟩

/-- Nothing on a closed channel is undefined behaviour. -/
theorem closed_step_ub {s : St} (h : WF s none) (hc : s.closed = true) (hu : s.ub = false) (e : Ev) :
    (s.step e).ub = false := by
  obtain ⟨hq1, hq2⟩ := h.closedQ hc
  have hR : ∀ (l : List Obs) (p : List Tok) i, (({ s with log := l, posted := p } : St).resumeR i).ub = false := by
    intro l p i
    rw [closed_resumeR (by exact hc) (by exact hq2)]
    exact hu
  have hW : ∀ (l : List Obs) (p : List Tok) i, (({ s with log := l, posted := p } : St).resumeW i).ub = false := by
    intro l p i
    obtain ⟨res, b, a, he, _⟩ := closed_resumeW (s := { s with log := l, posted := p }) (i := i) hq1
    rw [he]
    exact hu
  unfold St.step
  rw [if_neg (by simp [hu])]
  cases e with
  | mkR => exact hu
  | mkW => exact hu
  | awaitR i c x l =>
    dsimp only
    rw [awaitR_eq]
    split
    · exact hu
    · dsimp only
      rw [if_pos (Or.inl (by simp [St.readReady, hc]))]
      exact hR _ s.posted i
  | awaitW i c x l =>
    dsimp only
    rw [awaitW_eq]
    split
    · exact hu
    · dsimp only
      rw [if_pos (Or.inl (by simp [St.writeReady, hc]))]
      exact hW _ s.posted i
  | run k =>
    dsimp only
    unfold St.run
    split
    · exact hu
    · exact hR s.log _ _
    · exact hW s.log _ _
  | cancelR i => dsimp only; unfold St.cancelR; split <;> exact hu
  | cancelW i => dsimp only; unfold St.cancelW; split <;> exact hu
  | intR i => exact (int_ub s (.r i)).trans hu
  | intW i => exact (int_ub s (.w i)).trans hu
  | dropR i => dsimp only; unfold St.dropR; split <;> exact hu
  | dropW i => dsimp only; unfold St.dropW; split <;> exact hu
  | close => exact hu

theorem closed_steps_wf (es : List Ev) : ∀ {s : St}, WF s none → TK s none → s.closed = true → s.ub = false →
    WF (s.steps es) none ∧ TK (s.steps es) none ∧ (s.steps es).closed = true ∧ (s.steps es).ub = false := by
  induction es with
  | nil => intro s h t hc hu; exact ⟨h, t, hc, hu⟩
  | cons e es ih =>
    intro s h t hc hu
    have hu' := closed_step_ub h hc hu e
    have hw : WF (s.step e) none := by
      rcases h.step e with h1 | h1
      · simp [hu'] at h1
      · exact h1
    have hk : TK (s.step e) none := by
      rcases t.step h e with h1 | h1
      · simp [hu'] at h1
      · exact h1
    exact ih hw hk ((Rel.step h e).closed hc) hu'

/-- On a closed channel every suspended operation has been posted. -/
theorem closed_posted {s : St} (h : WF s none) (hc : s.closed = true) :
    (∀ i, (s.R i).status = .susp → Tok.r i ∈ s.posted) ∧
    (∀ i, (s.W i).status = .susp → Tok.w i ∈ s.posted) := by
  obtain ⟨hq1, hq2⟩ := h.closedQ hc
  refine ⟨fun i hi => ?_, fun i hi => ?_⟩
  · rcases h.rsusp i hi with h1 | h1 | h1
    · have := (h.rwait i h1).2; simp [hq1] at this
    · exact h1
    · simp at h1
  · rcases h.wsusp i hi with h1 | h1 | h1
    · have := (h.wwait i h1).2; simp [hq2] at this
    · exact h1
    · simp at h1

theorem hits_statusW (ts : List Tok) {s : St} {i : Nat} (hd : (s.W i).direct = true) :
    ((ts.foldl St.int s).W i).status = (s.W i).status := by
  induction ts generalizing s with
  | nil => rfl
  | cons x ts ih =>
    have h1 : ((s.int x).W i).direct = true ∧ ((s.int x).W i).status = (s.W i).status := by
      cases x with
      | r j =>
        simp only [St.int, intR_eq]
        split <;> [exact ⟨hd, rfl⟩; (split <;> exact ⟨hd, rfl⟩)]
      | w j =>
        simp only [St.int, intW_eq]
        split
        · exact ⟨hd, rfl⟩
        · split <;> (simp only [St.endW]; grind)
    exact (ih h1.1).trans h1.2

theorem resumeR_statusW (s : St) (i j : Nat) : ((s.resumeR j).W i).status = (s.W i).status := by
  have hw : ∀ t : St, (t.wakeWriter.W i).status = (t.W i).status := by
    intro t
    unfold St.wakeWriter
    split
    · rfl
    · dsimp only
      split
      · split
        · simp only; grind
        · rfl
      · rfl
  unfold St.resumeR
  split
  · rfl
  · split
    · rfl
    · split
      · rfl
      · rw [hw]; rfl
      · rw [hw]; rfl
      · rw [hw]; rfl

/-- As long as the channel is open every schedule is `Prompt`. -/
theorem prompt_of_open (es : List Ev) : ∀ {s : St}, s.ub = true ∨ WF s none → (s.steps es).closed = false →
    Prompt s es := by
  induction es with
  | nil => intro s _ _; trivial
  | cons e es ih =>
    intro s h hc
    refine ⟨?_, ?_⟩
    · have key : s.closed = true → False := by
        intro hcl
        have := (Rel.steps (e :: es) h).closed hcl
        rw [this] at hc
        simp at hc
      cases e <;> first | trivial | exact fun hcl => (key hcl).elim
    · refine ih ?_ hc
      rcases h with h | h
      · rw [step_ub h]; exact Or.inl h
      · exact h.step e

end Cobalt.Chan
