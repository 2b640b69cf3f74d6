import Verif.Comb.PropsResult
/-! The first signal of a `join`, which decides what a ranged one interrupts. -/
namespace Cobalt.Comb

/-- Code that sets no error: the signal of the first child stays, or is taken away after a
failure. -/
def Sg (s t : St) : Prop := t.sig 0 = s.sig 0 ∨ (t.sig 0 = false ∧ s.err ≠ none)

theorem Sg.refl (s : St) : Sg s s := Or.inl rfl

theorem Sg.trans {s t u : St} (h : Sg s t) (he : t.err = s.err) (k : Sg t u) : Sg s u := by
  rcases h with h | h <;> rcases k with k | k
  · exact Or.inl (k.trans h)
  · exact Or.inr ⟨k.1, by rw [← he]; exact k.2⟩
  · exact Or.inr ⟨k.trans h.1, h.2⟩
  · exact Or.inr ⟨k.1, h.2⟩

theorem Sg.scanEmit {c : Cfg} {s : St} {k : Nat} {co : Cont} {ct since : Nat}
    (h : k = 0 → co ≠ .ext → s.err ≠ none) : Sg s (St.scanEmit c s k co ct since).1 := by
  unfold St.scanEmit
  by_cases hc : co = .ext
  · split <;> simp [hc, Sg]
  · by_cases hk : k = 0
    · subst hk
      split <;> (right; simp [hc]; exact h rfl hc)
    · split <;> (left; simp [hc, hk])

theorem Sg.endStart2 (s : St) : Sg s s.endStart2 := by
  unfold St.endStart2; split <;> exact Or.inl rfl

theorem Sg.endStart (c : Cfg) (s : St) : Sg s (s.endStart c) := by
  unfold St.endStart
  split
  · rename_i hk
    dsimp only
    split
    · exact Sg.scanEmit fun _ _ => hk.2
    · exact (Sg.scanEmit fun _ _ => hk.2).trans (Sim.scanEmit ..).err (Sg.endStart2 _)
  · exact Sg.endStart2 _

theorem Sg.startNext (c : Cfg) (s : St) : Sg s (s.startNext c) := by
  unfold St.startNext
  split
  · exact Sg.endStart ..
  · exact Or.inl rfl

theorem Sg.done {c : Cfg} (hk : c.kind = .join) (s : St) (co : Cont) (d : Bool) : Sg s (s.done c co d) := by
  have hf : ∀ i, Sg s (s.finish i) ∧ (s.finish i).err = s.err := by
    intro i
    unfold St.finish
    dsimp only
    split <;> exact ⟨Or.inl rfl, rfl⟩
  cases co with
  | finish i b =>
    simp only [St.done]
    split
    · simp only [St.afterStart, hk]
      exact (hf i).1.trans (hf i).2 (Sg.startNext ..)
    · exact (hf i).1
  | txn i => exact Sg.refl _
  | startEnd => exact Sg.endStart2 _
  | ext => exact Sg.refl _

theorem Sg.contEmit {c : Cfg} (hk : c.kind = .join) {s : St} {k : Nat} {co : Cont} {ct since : Nat} {d : Bool}
    (h : k = 0 → co ≠ .ext → s.err ≠ none) : Sg s (s.contEmit c k co ct since d) := by
  unfold St.contEmit
  dsimp only
  split
  · exact Sg.scanEmit h
  · exact (Sg.scanEmit h).trans (Sim.scanEmit ..).err (Sg.done hk ..)

theorem Sg.contIntr {c : Cfg} {s : St} {k since : Nat} {d : Bool} : Sg s (s.contIntr c k .ext since d) := by
  unfold St.contIntr St.scanIntr
  dsimp only
  split <;> exact Or.inl rfl

theorem Sg.complete {c : Cfg} (hk : c.kind = .join) {s : St} {i : Nat} {o : Out} {b d : Bool} :
    Sg (s.record c i o b) (s.complete c i o b d) := by
  unfold St.complete St.record
  simp only [hk]
  cases o with
  | ok v => exact Sg.done hk ..
  | err e => refine Sg.contEmit hk fun _ _ => ?_; dsimp only; split <;> simp_all

theorem Sg.thrown {c : Cfg} (hk : c.kind = .join) {s : St} {i e : Nat} {d : Bool} :
    Sg (s.recordThrown c i e) (s.thrown c i e d) := by
  unfold St.thrown St.recordThrown
  simp only [hk]
  refine Sg.contEmit hk fun _ _ => ?_; dsimp only; split <;> simp_all

/-- After `cancel_all` of a failure the signal is gone. -/
theorem gone_contEmit {c : Cfg} (hk : c.kind = .join) {s : St} {co : Cont} {ct since : Nat} {d : Bool}
    (hc : co ≠ .ext) (he : s.err ≠ none) : (s.contEmit c 0 co ct since d).sig 0 = false := by
  have h1 : (St.scanEmit c s 0 co ct since).1.sig 0 = false := by
    unfold St.scanEmit
    split <;> simp [hc]
  unfold St.contEmit
  dsimp only
  split
  · exact h1
  · rcases Sg.done hk (St.scanEmit c s 0 co ct since).1 co d with h | h
    · exact h.trans h1
    · exact h.1

theorem gone_complete {c : Cfg} (hk : c.kind = .join) {s : St} {i e : Nat} {b d : Bool} :
    (s.complete c i (.err e) b d).sig 0 = false := by
  unfold St.complete
  simp only [hk]
  refine gone_contEmit hk (by simp) ?_
  dsimp only; split <;> simp_all

theorem gone_thrown {c : Cfg} (hk : c.kind = .join) {s : St} {i e : Nat} {d : Bool} :
    (s.thrown c i e d).sig 0 = false := by
  unfold St.thrown
  simp only [hk]
  refine gone_contEmit hk (by simp) ?_
  dsimp only; split <;> simp_all

/-- Where a `join` is with its first child: not begun, asking it, or past that. -/
inductive First (s : St) (es : List Ev) : Prop where
  | before (h1 : s.phase = .before) (h2 : ∀ j, s.sig j = false) (h3 : s.err = none) (h4 : .notReady 0 ∉ es)
  | asking (h1 : s.stack = [.asking 0]) (h2 : ∀ j, s.sig j = false) (h3 : s.err = none) (h4 : .notReady 0 ∉ es)
      (h5 : ∀ j, s.child j ≠ .waiting)
  | past (h1 : s.child 0 = .waiting ∨ (s.child 0).ended = true)
      (h2 : s.sig 0 = true ↔ (.notReady 0 ∈ es ∧ s.err = none))

theorem record_join {c : Cfg} (hk : c.kind = .join) (s : St) (i : Nat) (o : Out) (b : Bool) :
    (s.record c i o b).sig = s.sig ∧ ((s.record c i o b).err = none ↔ (s.err = none ∧ ∀ e, o ≠ .err e)) := by
  unfold St.record
  simp only [hk]
  cases o with
  | ok v => simp
  | err e => simp only; split <;> simp_all

theorem recordThrown_join {c : Cfg} (hk : c.kind = .join) (s : St) (i e : Nat) :
    (s.recordThrown c i e).sig = s.sig ∧ (s.recordThrown c i e).err ≠ none := by
  unfold St.recordThrown
  simp only [hk]
  split <;> simp_all

theorem First.step {c : Cfg} (hc : c.Ok) (hk : c.kind = .join) {g nc : Bool} {s : St} {es : List Ev}
    (ha : All c g nc s es) (h : First s es) {e : Ev} (hcan : s.can c e = true) :
    (s.step c e).ub = true ∨ First (s.step c e) (es ++ [e]) := by
  by_cases hu' : (s.step c e).ub = true
  · exact Or.inl hu'
  right
  have hi := ha.inv
  have hu := ha.ub
  have hs := step_sim hi hu hcan
  cases h with
  | before h1 h2 h3 h4 =>
    have := before_can hi h1 hcan
    subst this
    have hb := hi.before h1
    have hst : s.stack = [] := by simpa [St.tags] using hb.2.1
    have ho := hc.left (by rw [hk]; simp)
    revert hu'
    unfold St.step
    rw [if_neg (by simp [hu, hcan])]
    dsimp only
    split
    · intro h; simp at h
    · rename_i hne
      intro _
      have hn : ∃ m, c.n = m + 1 := by
        cases hn : c.n with
        | zero => rw [hn] at ho; exact absurd ho hne
        | succ m => exact ⟨m, rfl⟩
      obtain ⟨m, hm⟩ := hn
      have ho' : c.order = 0 :: List.range' 1 m := by
        rw [ho, hm, List.range_eq_range']; rfl
      refine .asking ?_ ?_ ?_ (by simp [h4]) ?_
      · simp [St.startNext, ho', hst]
      · simp [St.startNext, ho', h2]
      · simp [St.startNext, ho', h3]
      · intro j
        simp only [St.startNext, ho', upd_apply]
        split
        · simp
        · rw [hb.2.2.2 j]; simp
  | asking h1 h2 h3 h4 h5 =>
    have hph : s.phase = .starting := by
      have ht : s.tags = .ask 0 :: [] := by simp [St.tags, h1, Frame.tag]
      rw [ht] at hi
      exact hi.phase_of rfl
    cases e with
    | begin => simp [St.can, hph] at hcan
    | ready i o d =>
      have hi0 : i = 0 := by have := hcan; simp [St.can, h1] at this; exact this.symm
      subst hi0
      simp only at hs
      have hr := record_join hk { s with stack := s.stack.tail } 0 o true
      refine .past (Or.inr ?_) ?_
      · rw [hs.ended, (record_frame ..).1]; simp [CS.ended]
      · have hx : (s.step c (.ready 0 o d)).sig 0 = false := by
          unfold St.step
          rw [if_neg (by simp [hu, hcan])]
          rcases Sg.complete hk (s := { s with stack := s.stack.tail }) (i := 0) (o := o) (b := true) (d := d) with h | h
          · rw [h, hr.1]; exact h2 0
          · exact h.1
        simp [hx, h4]
    | notReady i =>
      have hi0 : i = 0 := by have := hcan; simp [St.can, h1] at this; exact this.symm
      subst hi0
      refine .past (Or.inl ?_) ?_
      · unfold St.step
        rw [if_neg (by simp [hu, hcan])]
        simp
      · unfold St.step
        rw [if_neg (by simp [hu, hcan])]
        simp [h3]
    | thrown i x d =>
      have hi0 : i = 0 := by have := hcan; simp [St.can, h1] at this; exact this.symm
      subst hi0
      simp only at hs
      refine .past (Or.inr ?_) ?_
      · rw [hs.ended, (recordThrown_frame ..).1]; simp [CS.ended]
      · have hx : (s.step c (.thrown 0 x d)).sig 0 = false := by
          unfold St.step
          rw [if_neg (by simp [hu, hcan])]
          exact gone_thrown hk
        simp [hx, h4]
    | fin i o => simp [St.can, h5 i] at hcan
    | txn i => simp [St.can, hk] at hcan
    | ret d => simp [St.can, h1] at hcan
    | cancel ct => simp [St.can, hph] at hcan
    | interrupt =>
      have hx : s.step c .interrupt = s := by
        unfold St.step
        rw [if_neg (by simp [hu, hcan])]
        have hn : St.next c.n 0 (St.hit c s) = none := by
          unfold St.next
          rw [List.find?_eq_none]
          intro j _
          simp [St.hit, hk, h2]
        simp [St.contIntr, St.scanIntr, hn]
      rw [hx]
      exact .asking h1 h2 h3 (by simp [h4]) h5
  | past h1 h2 =>
    have hna : s.child 0 ≠ .asking := by
      intro h; rw [h] at h1; simp [CS.ended] at h1
    -- the first child is never asked again
    have hnr : e ≠ .notReady 0 := by
      rintro rfl
      have hh : s.stack.head? = some (.asking 0) := by simpa [St.can] using hcan
      have ht := tags_of_head hh
      exact hna ((hi.asking 0).2 (by rw [ht]; simp [Frame.tag]))
    have hmem : .notReady 0 ∈ es ++ [e] ↔ .notReady 0 ∈ es := by
      simp only [List.mem_append, List.mem_singleton]
      exact ⟨fun h => h.resolve_right fun h => hnr h.symm, Or.inl⟩
    -- it stays where it is or ends
    have hpast : (s.step c e).child 0 = .waiting ∨ ((s.step c e).child 0).ended = true := by
      cases e <;> simp only at hs
      case ready j o d =>
        by_cases hj : 0 = j
        · right; rw [hs.ended, (record_frame ..).1]; simp [hj, CS.ended]
        · rw [hs.waiting, hs.ended, (record_frame ..).1]; simpa [hj] using h1
      case thrown j x d =>
        by_cases hj : 0 = j
        · right; rw [hs.ended, (recordThrown_frame ..).1]; simp [hj, CS.ended]
        · rw [hs.waiting, hs.ended, (recordThrown_frame ..).1]; simpa [hj] using h1
      case fin j o =>
        by_cases hj : 0 = j
        · right; rw [hs.ended, (record_frame ..).1]; simp [hj, CS.ended]
        · rw [hs.waiting, hs.ended, (record_frame ..).1]; simpa [hj] using h1
      case notReady j =>
        by_cases hj : 0 = j
        · left; rw [hs.waiting]; simp [hj]
        · rw [hs.waiting, hs.ended]; simpa [hj] using h1
      case txn j => simp [St.can, hk] at hcan
      all_goals rw [hs.waiting, hs.ended]; exact h1
    -- code that records nothing
    have calm : ∀ {t : St}, Sg s t → t.err = s.err →
        (t.sig 0 = true ↔ (.notReady 0 ∈ es ++ [e] ∧ t.err = none)) := by
      intro t hg he
      rw [hmem, he]
      rcases hg with hg | hg
      · rw [hg]; exact h2
      · simp [hg.1, hg.2]
    -- code that records an outcome
    have recd : ∀ {r t : St}, r.sig = s.sig → (r.err = none → s.err = none) → Sg r t → t.err = r.err →
        (r.err ≠ none → s.err = none → t.sig 0 = false) →
        (t.sig 0 = true ↔ (.notReady 0 ∈ es ++ [e] ∧ t.err = none)) := by
      intro r t hrs hre hg he hgone
      rw [hmem, he]
      by_cases hr : r.err = none
      · rcases hg with hg | hg
        · rw [hg, hrs, h2]; simp [hr, hre hr]
        · exact absurd hr hg.2
      · by_cases hse : s.err = none
        · simp [hgone hr hse, hr]
        · have : s.sig 0 = false := by
            cases hx : s.sig 0 with
            | false => rfl
            | true => exact absurd (h2.1 hx).2 hse
          rcases hg with hg | hg
          · rw [hg, hrs, this]; simp [hr]
          · simp [hg.1, hr]
    refine .past hpast ?_
    revert hs
    unfold St.step
    rw [if_neg (by simp [hu, hcan])]
    cases e with
    | begin =>
      simp only [St.can, beq_iff_eq] at hcan
      have := (hi.before hcan).2.2.2 0
      rw [this] at h1; simp [CS.ended] at h1
    | ready i o d =>
      intro hs
      have hr := record_join hk { s with stack := s.stack.tail } i o true
      refine recd hr.1 (fun h => (hr.2.1 h).1) (Sg.complete hk) hs.err ?_
      intro h3 h4
      have : ∃ e, o = .err e := by
        cases o with
        | ok v => exact absurd (hr.2.2 ⟨h4, by simp⟩) h3
        | err e => exact ⟨e, rfl⟩
      obtain ⟨e, rfl⟩ := this
      exact gone_complete hk
    | notReady i =>
      intro hs
      have hne : 0 ≠ i := fun h => hnr (by rw [h])
      exact calm (Or.inl (by simp [hne])) rfl
    | thrown i x d =>
      intro hs
      have hr := recordThrown_join hk { s with stack := s.stack.tail } i x
      exact recd hr.1 (fun h => absurd h hr.2) (Sg.thrown hk) hs.err fun _ _ => gone_thrown hk
    | fin i o =>
      intro hs
      have hr := record_join hk s i o false
      refine recd hr.1 (fun h => (hr.2.1 h).1) (Sg.complete hk) hs.err ?_
      intro h3 h4
      have : ∃ e, o = .err e := by
        cases o with
        | ok v => exact absurd (hr.2.2 ⟨h4, by simp⟩) h3
        | err e => exact ⟨e, rfl⟩
      obtain ⟨e, rfl⟩ := this
      exact gone_complete hk
    | txn i => simp [St.can, hk] at hcan
    | ret d =>
      intro hs
      refine calm ?_ hs.err
      dsimp only
      split
      · exact Sg.refl _
      · exact Sg.refl _
      · simp only [St.afterStart, hk]
        exact Sg.startNext c { s with stack := _ }
      · rename_i k co since rest hst
        split
        · exact Or.inl rfl
        · have hco : co = .ext := by
            refine Classical.byContradiction fun hne => ?_
            have := ha.loops.intrK (k + 1) co since (by simp [St.acts, hst, Frame.act]) hne
            rw [hk] at this; simp at this
          subst hco
          exact Sg.contIntr (s := { s with stack := rest })
      · rename_i k co ct since rest hst
        split
        · exact Or.inl rfl
        · exact Sg.contEmit hk (s := { s with stack := rest }) (by simp)
    | cancel ct => intro hs; exact calm (Sg.contEmit hk (by simp)) hs.err
    | interrupt => intro hs; exact calm Sg.contIntr hs.err

theorem First.steps {c : Cfg} (hc : c.Ok) (hk : c.kind = .join) : ∀ (es pre : List Ev) {g nc : Bool} {s : St},
    All c g nc s pre → First s pre → Legal c s es →
    (s.steps c es).ub = true ∨ First (s.steps c es) (pre ++ es)
  | [], pre, _, _, s, _, h, _ => Or.inr (by simpa [St.steps] using h)
  | e :: es, pre, g, nc, s, ha, h, hl => by
    have h1 := ha.step hc hl.1
    have h2 := First.step hc hk ha h hl.1
    rcases h1 with h1 | h1
    · exact Or.inl (steps_ub es h1)
    · rcases h2 with h2 | h2
      · exact Or.inl (steps_ub es h2)
      · have := First.steps hc hk es (pre ++ [e]) h1 h2 hl.2
        simpa [St.steps] using this

/-- The signal of the first child of a `join` is there exactly if it was waited for and nothing
has failed. -/
theorem join_sig0 {c : Cfg} (hc : c.Ok) (hk : c.kind = .join) {es : List Ev} (hl : Legal c {} es)
    (hu : (St.run c es).ub = false) :
    (St.run c es).sig 0 = true ↔ (.notReady 0 ∈ es ∧ firstErr es = none) := by
  have ha := All.run hc hl hu
  rw [← ha.hist.joinErr hk]
  have h := First.steps hc hk es [] (All.init c) (.before rfl (fun _ => rfl) rfl (by simp)) hl
  rcases h with h | h
  · rw [show St.steps c {} es = St.run c es from rfl, hu] at h; simp at h
  · rw [List.nil_append] at h
    rcases h with ⟨_, h2, _, h4⟩ | ⟨_, h2, _, h4, _⟩ | ⟨_, h2⟩
    · have := h2 0; rw [show St.steps c {} es = St.run c es from rfl] at this; simp [this, h4]
    · have := h2 0; rw [show St.steps c {} es = St.run c es from rfl] at this; simp [this, h4]
    · exact h2

end Cobalt.Comb
