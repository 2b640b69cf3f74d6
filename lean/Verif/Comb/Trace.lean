import Verif.Comb.Hist
/-! The history invariant. -/
namespace Cobalt.Comb

theorem outcome_snoc (es : List Ev) (e : Ev) (i : Nat) :
    outcome (es ++ [e]) i = (outcome es i).or (match e.ends with
      | some (j, o) => if j = i then some o else none
      | none => none) := by
  unfold outcome
  rw [List.filterMap_append, List.findSome?_append]
  congr 1
  cases h : e.ends with
  | none => simp [h]
  | some p => obtain ⟨j, o⟩ := p; by_cases hj : j = i <;> simp [h, hj]

theorem firstErr_snoc (es : List Ev) (e : Ev) :
    firstErr (es ++ [e]) = (firstErr es).or (match e.ends with
      | some (_, .err x) => some x
      | _ => none) := by
  unfold firstErr
  rw [List.filterMap_append, List.findSome?_append]
  congr 1
  cases h : e.ends with
  | none => simp [h]
  | some p => obtain ⟨j, o⟩ := p; cases o <;> simp [h]

theorem winner_snoc (es : List Ev) (e : Ev) : winner (es ++ [e]) = (winner es).or e.claims := by
  unfold winner
  rw [List.filterMap_append, List.head?_append]
  congr 1
  cases h : e.claims <;> simp [h]

/-- The results say what happened. -/
structure Hist (c : Cfg) (s : St) (es : List Ev) : Prop where
  ended : ∀ i, (s.child i).ended = (outcome es i).isSome
  gather : c.kind = .gather → ∀ i, s.res i = outcome es i
  joinErr : c.kind = .join → s.err = firstErr es
  join : c.kind = .join → ∀ i v, outcome es i = some (.ok v) → s.res i = some (.ok v)
  race : c.kind = .race → s.index = winner es
  idx : ∀ i, s.index = some i → s.child i ≠ .idle
  some : s.phase ≠ .before → ∃ i, s.child i ≠ .idle

theorem Hist.init (c : Cfg) : Hist c {} [] := by
  constructor <;> simp [CS.ended, outcome, firstErr, winner]

/-- The phase is handled apart. -/
structure Hist' (c : Cfg) (s : St) (es : List Ev) : Prop where
  ended : ∀ i, (s.child i).ended = (outcome es i).isSome
  gather : c.kind = .gather → ∀ i, s.res i = outcome es i
  joinErr : c.kind = .join → s.err = firstErr es
  join : c.kind = .join → ∀ i v, outcome es i = some (.ok v) → s.res i = some (.ok v)
  race : c.kind = .race → s.index = winner es
  idx : ∀ i, s.index = some i → s.child i ≠ .idle

theorem Hist'.sim {c : Cfg} {s t : St} {es : List Ev} (h : Hist' c s es) (k : Sim s t) : Hist' c t es := by
  constructor
  · intro i; rw [k.ended]; exact h.ended i
  · rw [k.res]; exact h.gather
  · rw [k.err]; exact h.joinErr
  · rw [k.res]; exact h.join
  · rw [k.index]; exact h.race
  · intro i hi; rw [k.index] at hi; exact k.idle i (h.idx i hi)

theorem Hist.weak {c : Cfg} {s : St} {es : List Ev} (h : Hist c s es) : Hist' c s es :=
  ⟨h.ended, h.gather, h.joinErr, h.join, h.race, h.idx⟩

/-- An event that completes nothing and claims nothing. -/
theorem Hist'.quiet {c : Cfg} {s : St} {es : List Ev} (h : Hist' c s es) {e : Ev} (h1 : e.ends = none)
    (h2 : e.claims = none) : Hist' c s (es ++ [e]) := by
  constructor
  · intro i; rw [outcome_snoc, h1]; simpa using h.ended i
  · intro hk i; rw [outcome_snoc, h1]; simpa using h.gather hk i
  · intro hk; rw [firstErr_snoc, h1]; simpa using h.joinErr hk
  · intro hk i v; rw [outcome_snoc, h1]; simpa using h.join hk i v
  · intro hk; rw [winner_snoc, h2]; simpa using h.race hk
  · exact h.idx

theorem raceSuspended_index (c : Cfg) (s : St) (i : Nat) (o : Out) :
    (s.raceSuspended c i o).index = s.index.or (some i) := by
  unfold St.raceSuspended
  cases hs : s.index <;> cases o <;> by_cases hv : c.void i = true <;> simp [hs, hv] <;> (repeat' split) <;> simp_all

theorem raceReady_index (c : Cfg) (s : St) (i : Nat) (o : Out) :
    (s.raceReady c i o).index = s.index.or (some i) := by
  unfold St.raceReady
  cases hs : s.index <;> cases o <;> simp [hs] <;> (repeat' split) <;> simp_all

theorem record_index (c : Cfg) (hk : c.kind = .race) (s : St) (i : Nat) (o : Out) (b : Bool) :
    (s.record c i o b).index = s.index.or (some i) := by
  unfold St.record
  simp only [hk]
  cases b
  · simp [raceSuspended_index]
  · simp [raceReady_index]

/-- A completion is recorded. -/
theorem Hist'.record {c : Cfg} {s : St} {es : List Ev} (h : Hist' c s es) {e : Ev} {i : Nat} {o : Out} {b : Bool}
    (h1 : e.ends = some (i, o)) (h2 : e.claims = some i) (hi : (s.child i).ended = false) :
    Hist' c (s.record c i o b) (es ++ [e]) := by
  have hn : outcome es i = none := by
    have := h.ended i; rw [hi] at this; simpa using this.symm
  have hch := (record_frame c s i o b).1
  constructor
  · intro j
    rw [outcome_snoc, h1, hch]
    by_cases hj : j = i
    · subst hj; simp [CS.ended]
    · have := h.ended j
      simp [hj, this, Ne.symm hj]
  · intro hk j
    rw [outcome_snoc, h1]
    have := h.gather hk j
    simp only [St.record, hk, upd_apply]
    by_cases hj : j = i
    · subst hj; simp [hn]
    · simp [hj, this, Ne.symm hj]
  · intro hk
    rw [firstErr_snoc, h1]
    have := h.joinErr hk
    simp only [St.record, hk]
    cases o
    · simp [this]
    · cases hf : firstErr es <;> simp [this, hf]
  · intro hk j v
    rw [outcome_snoc, h1]
    have := h.join hk j v
    simp only [St.record, hk]
    by_cases hj : j = i
    · subst hj
      cases o <;> simp [hn]
    · cases o <;> simp [hj, Ne.symm hj] <;> exact this
  · intro hk
    rw [winner_snoc, h2, record_index c hk, h.race hk]
  · intro j hj
    rw [hch]
    by_cases hji : j = i
    · simp [hji]
    · have : s.index = Option.some j := by
        cases hk : c.kind
        · simpa [St.record, hk] using hj
        · cases o <;> simpa [St.record, hk] using hj
        · rw [record_index c hk] at hj
          cases hs : s.index <;> simp [hs] at hj
          · exact absurd hj.symm hji
          · simp [hj]
      simp [hji, h.idx j this]

theorem recordThrown_index (c : Cfg) (hk : c.kind = .race) (s : St) (i : Nat) (e : Nat) :
    (s.recordThrown c i e).index = s.index.or (some i) := by
  unfold St.recordThrown
  simp only [hk]
  cases hs : s.index <;> simp [hs] <;> (repeat' split) <;> simp_all

theorem Hist'.recordThrown {c : Cfg} {s : St} {es : List Ev} (h : Hist' c s es) {e : Ev} {i : Nat} {x : Nat}
    (h1 : e.ends = some (i, .err x)) (h2 : e.claims = some i) (hi : (s.child i).ended = false) :
    Hist' c (s.recordThrown c i x) (es ++ [e]) := by
  have hn : outcome es i = none := by
    have := h.ended i; rw [hi] at this; simpa using this.symm
  have hch := (recordThrown_frame c s i x).1
  constructor
  · intro j
    rw [outcome_snoc, h1, hch]
    by_cases hj : j = i
    · subst hj; simp [CS.ended]
    · have := h.ended j
      simp [hj, this, Ne.symm hj]
  · intro hk j
    rw [outcome_snoc, h1]
    have := h.gather hk j
    simp only [St.recordThrown, hk, upd_apply]
    by_cases hj : j = i
    · subst hj; simp [hn]
    · simp [hj, this, Ne.symm hj]
  · intro hk
    rw [firstErr_snoc, h1]
    have := h.joinErr hk
    simp only [St.recordThrown, hk]
    cases hf : firstErr es <;> simp [this, hf]
  · intro hk j v
    rw [outcome_snoc, h1]
    have := h.join hk j v
    simp only [St.recordThrown, hk]
    by_cases hj : j = i
    · subst hj; simp [hn]
    · simp [Ne.symm hj]; exact this
  · intro hk
    rw [winner_snoc, h2, recordThrown_index c hk, h.race hk]
  · intro j hj
    rw [hch]
    by_cases hji : j = i
    · simp [hji]
    · have : s.index = Option.some j := by
        cases hk : c.kind
        · simpa [St.recordThrown, hk] using hj
        · simpa [St.recordThrown, hk] using hj
        · rw [recordThrown_index c hk] at hj
          cases hs : s.index <;> simp [hs] at hj
          · exact absurd hj.symm hji
          · simp [hj]
      simp [hji, h.idx j this]

theorem step_idle {c : Cfg} {s : St} (h : Inv c s s.tags) {e : Ev} (hu : s.ub = false) (hcan : s.can c e = true)
    (i : Nat) (hi : s.child i ≠ .idle) : (s.step c e).child i ≠ .idle := by
  have hs := step_sim h hu hcan
  cases e <;> simp only at hs
  case ready j o d => exact hs.idle i (by rw [(record_frame ..).1]; by_cases hj : i = j <;> simp [hj, hi])
  case thrown j x d => exact hs.idle i (by rw [(recordThrown_frame ..).1]; by_cases hj : i = j <;> simp [hj, hi])
  case fin j o => exact hs.idle i (by rw [(record_frame ..).1]; by_cases hj : i = j <;> simp [hj, hi])
  case notReady j => exact hs.idle i (by by_cases hj : i = j <;> simp [hj, hi])
  case txn j => exact hs.idle i (by split <;> exact hi)
  all_goals exact hs.idle i hi

theorem before_can {c : Cfg} {s : St} (h : Inv c s s.tags) (hp : s.phase = .before) {e : Ev}
    (hcan : s.can c e = true) : e = .begin := by
  obtain ⟨-, h2, -, h4⟩ := h.before hp
  have hst : s.stack = [] := by simpa [St.tags] using h2
  cases e <;> simp_all [St.can]

theorem Hist.step {c : Cfg} {s : St} (hi : Inv c s s.tags) {es : List Ev} (h : Hist c s es) {e : Ev}
    (hu : s.ub = false) (hcan : s.can c e = true) :
    (s.step c e).ub = true ∨ Hist c (s.step c e) (es ++ [e]) := by
  by_cases hu' : (s.step c e).ub = true
  · exact Or.inl hu'
  right
  have hh : Hist' c (s.step c e) (es ++ [e]) := by
    have hs := step_sim hi hu hcan
    have hw := h.weak
    cases e <;> simp only at hs
    case ready i o d =>
      refine (Hist'.record (s := { s with stack := s.stack.tail }) ⟨hw.ended, hw.gather, hw.joinErr, hw.join, hw.race, hw.idx⟩
        rfl rfl ?_).sim hs
      have hh : s.stack.head? = .some (.asking i) := by simpa [St.can] using hcan
      have ht := tags_of_head hh
      have := (hi.asking i).2 (by rw [ht]; simp [Frame.tag])
      simp [this, CS.ended]
    case thrown i x d =>
      refine (Hist'.recordThrown (s := { s with stack := s.stack.tail })
        ⟨hw.ended, hw.gather, hw.joinErr, hw.join, hw.race, hw.idx⟩ rfl rfl ?_).sim hs
      simp only [St.can, Bool.or_eq_true, beq_iff_eq, Bool.and_eq_true] at hcan
      rcases hcan with hh | ⟨-, hh⟩
      · have ht := tags_of_head hh
        have := (hi.asking i).2 (by rw [ht]; simp [Frame.tag])
        simp [this, CS.ended]
      · simp [hh, CS.ended]
    case fin i o =>
      refine (hw.record rfl rfl ?_).sim hs
      simp only [St.can, Bool.and_eq_true, beq_iff_eq] at hcan
      simp [hcan.1, CS.ended]
    case txn i =>
      simp only [St.can, Bool.and_eq_true, beq_iff_eq] at hcan
      refine Hist'.sim ?_ hs
      constructor
      · intro j; rw [outcome_snoc]; split <;> simp [hw.ended, Ev.ends]
      · intro hk; rw [hcan.1.1] at hk; simp at hk
      · intro hk; rw [hcan.1.1] at hk; simp at hk
      · intro hk; rw [hcan.1.1] at hk; simp at hk
      · intro hk
        rw [winner_snoc, ← hw.race hk]
        cases hx : s.index <;> simp [hx, Ev.claims]
      · intro j hj
        cases hx : s.index
        · simp only [hx, ↓reduceIte, Option.some.injEq] at hj ⊢
          subst hj
          simp [hcan.1.2]
        · rw [if_neg (by simp [hx])] at hj ⊢
          exact hw.idx j hj
    case notReady i =>
      refine Hist'.sim ?_ hs
      have hh : s.stack.head? = .some (.asking i) := by simpa [St.can] using hcan
      have ht := tags_of_head hh
      have hA := (hi.asking i).2 (by rw [ht]; simp [Frame.tag])
      have hq := hw.quiet (e := .notReady i) rfl rfl
      refine ⟨fun j => ?_, hq.gather, hq.joinErr, hq.join, hq.race, fun j hj => ?_⟩
      · rw [← hq.ended j]
        by_cases hj : j = i <;> simp [hj, hA, CS.ended]
      · have := hq.idx j hj
        by_cases hj : j = i <;> simp [hj, this]
    all_goals exact (hw.quiet rfl rfl).sim hs
  refine ⟨hh.ended, hh.gather, hh.joinErr, hh.join, hh.race, hh.idx, fun _ => ?_⟩
  by_cases hp : s.phase = .before
  · have he := before_can hi hp hcan
    subst he
    unfold St.step at hu' ⊢
    rw [if_neg (by simp [hu, hcan])] at hu' ⊢
    dsimp only at hu' ⊢
    split
    · rename_i h0; simp [h0] at hu'
    · unfold St.startNext
      dsimp only
      cases ho : c.order
      · rename_i h0; exact absurd ho h0
      · rename_i a l
        exact ⟨a, by simp⟩
  · obtain ⟨i, hi'⟩ := h.some hp
    exact ⟨i, step_idle hi hu hcan i hi'⟩

theorem steps_ub {c : Cfg} : ∀ (es : List Ev) {s : St}, s.ub = true → (s.steps c es).ub = true
  | [], _, h => h
  | e :: es, s, h => by
    refine steps_ub es (s := s.step c e) ?_
    unfold St.step; rw [if_pos (by simp [h])]; exact h

theorem Hist.steps {c : Cfg} (hc : c.Ok) : ∀ (es pre : List Ev) {s : St}, Inv c s s.tags → Hist c s pre →
    Legal c s es → (s.steps c es).ub = true ∨ Hist c (s.steps c es) (pre ++ es)
  | [], pre, _, _, h, _ => by right; rw [List.append_nil]; exact h
  | e :: es, pre, s, hi, h, hl => by
    by_cases hu : s.ub = true
    · exact Or.inl (steps_ub _ hu)
    · have hu : s.ub = false := by simpa using hu
      rcases hi.step hc e with h1 | h1
      · exact Or.inl (steps_ub es h1)
      · rcases h.step hi hu hl.1 with h2 | h2
        · exact Or.inl (steps_ub es h2)
        · have := Hist.steps hc es (pre ++ [e]) h1 h2 hl.2
          rw [List.append_assoc] at this
          exact this

theorem Hist.run {c : Cfg} (hc : c.Ok) {es : List Ev} (hl : Legal c {} es) :
    (St.run c es).ub = true ∨ Hist c (St.run c es) es := by
  exact Hist.steps hc es [] (Inv.init c) (Hist.init c) hl

end Cobalt.Comb
