import Verif.Chan.PropsValues
/-!
# Lemmas for C05: a failed assertion means that a value is lost, for good
-/
namespace Cobalt.Chan

/-- The channel has taken value `w` over, but it is not in the buffer, was not read, and is not on its way to a
reader. -/
def St.Lost (s : St) (w : Nat) : Prop :=
  ((s.W w).direct = true ∨ Obs.doneW w .ok ∈ s.log) ∧ w ∉ s.buf ∧ w ∉ delivered s.log ∧ ¬ s.inHand w

def Lo (s : St) : Prop := s.asserted = true → ∃ w, s.Lost w

theorem Lo.mono {s s' : St} (l : Lo s) (ha : s'.asserted = s.asserted) (h : ∀ w, s.Lost w → s'.Lost w) : Lo s' := by
  intro h'
  rw [ha] at h'
  obtain ⟨w, hw⟩ := l h'
  exact ⟨w, h w hw⟩

theorem lost_intro {s s' : St} {w : Nat} (h : s.Lost w)
    (h0 : (s.W w).direct = true → (s'.W w).direct = true)
    (h1 : ∀ o, o ∈ s.log → o ∈ s'.log)
    (h2 : w ∈ s'.buf → w ∈ s.buf ∨ s.inHand w)
    (h3 : w ∈ delivered s'.log → w ∈ delivered s.log ∨ w ∈ s.buf ∨ s.inHand w)
    (h4 : ∀ j, (s'.R j).status = .susp → (s'.R j).direct = some w → (s.R j).status = .susp ∧ (s.R j).direct = some w) :
    s'.Lost w := by
  obtain ⟨a, b, c, d⟩ := h
  refine ⟨?_, ?_, ?_, ?_⟩
  · rcases a with a | a
    · exact Or.inl (h0 a)
    · exact Or.inr (h1 _ a)
  · intro hb; rcases h2 hb with h | h
    · exact b h
    · exact d h
  · intro hb; rcases h3 hb with h | h | h
    · exact c h
    · exact b h
    · exact d h
  · rintro ⟨j, x, y⟩
    exact d ⟨j, h4 j x y⟩

theorem Lo.failR {s : St} {i : Nat} {res : RRes} (l : Lo s) (hr : ∀ w, res ≠ .value w) : Lo (s.endR i res) := by
  refine l.mono rfl fun w hw => ?_
  apply lost_intro hw <;> simp only [St.endR] <;> grind

theorem Lo.failW {s : St} {i : Nat} {res : WRes} (l : Lo s) : Lo (s.endW i res) := by
  refine l.mono rfl fun w hw => ?_
  apply lost_intro hw <;> simp only [St.endW] <;> grind

theorem Lo.wakeWriter {s : St} (h : s.rq = [] ∨ s.wq = []) (l : Lo s) : Lo s.wakeWriter := by
  unfold St.wakeWriter
  split
  · exact l
  · rename_i w rest hq
    have he : s.rq = [] := by rcases h with h | h <;> simp_all
    simp only [he, ne_eq, not_true_eq_false, decide_false, Bool.or_false]
    split
    · split
      · refine l.mono rfl fun w hw => ?_
        apply lost_intro hw <;> simp only <;> grind
      · exact l
    · exact l

theorem Lo.wakeReader {s : St} (h : s.rq = [] ∨ s.wq = []) (l : Lo s) : Lo s.wakeReader := by
  unfold St.wakeReader
  split
  · exact l
  · rename_i w rest hq
    have he : s.wq = [] := by rcases h with h | h <;> simp_all
    simp only [he, ne_eq, not_true_eq_false, decide_false, Bool.or_false]
    split
    · split
      · refine l.mono rfl fun w hw => ?_
        apply lost_intro hw <;> simp only <;> grind
      · exact l
    · exact l

theorem Lo.valR {s : St} {i v : Nat} {b : List Nat} (l : Lo s)
    (hv : v ∈ s.buf ∨ s.inHand v) (hb : ∀ w, w ∈ b → w ∈ s.buf ∨ s.inHand w) :
    Lo { s.endR i (.value v) with buf := b } := by
  refine l.mono rfl fun w hw => ?_
  have := hb w
  apply lost_intro hw <;> simp only [St.endR] <;> grind

theorem Lo.okDirect {s : St} {i : Nat} (l : Lo s) : Lo (s.endW i .ok) := l.failW

theorem Lo.okPush {s : St} {i : Nat} (h : WF s (some (.w i))) (t : TK s (some (.w i))) (l : Lo s)
    (hs : (s.W i).direct = false) :
    Lo { s.endW i .ok with buf := pushBack s.cap s.buf i,
                           asserted := s.asserted || decide (s.buf.length = s.cap) } := by
  have := h.wcur i rfl
  have hne : ∀ res, Obs.doneW i res ∉ s.log := by
    intro res hm; have := t.endW i res hm; grind
  have hib : i ∉ s.buf := by have := t.srcB i; have := hne .ok; grind
  have hid : i ∉ delivered s.log := by have := t.srcD i; have := hne .ok; grind
  have hih : ∀ j, (s.R j).direct ≠ some i := by intro j hj; have := t.dirW j i hj; grind
  have hm : ∀ y, y ∈ pushBack s.cap s.buf i → y ∈ s.buf ∨ y = i := fun y => mem_pushBack
  intro ha
  simp only [Bool.or_eq_true, decide_eq_true_eq] at ha
  by_cases hl : s.asserted = true
  · obtain ⟨w, hw⟩ := l hl
    have hwi : w ≠ i := by
      rintro rfl
      rcases hw.1 with h1 | h1
      · rw [hs] at h1; exact absurd h1 (by simp)
      · exact hne _ h1
    refine ⟨w, ?_⟩
    apply lost_intro hw <;> simp only [St.endW] <;> grind
  · have hfull : s.buf.length = s.cap := by grind
    by_cases hc : s.cap = 0
    · refine ⟨i, Or.inr (by simp [St.endW]), ?_, ?_, ?_⟩
      · simpa [pushBack, hc] using hib
      · simpa [St.endW] using hid
      · rintro ⟨j, _, hj⟩
        exact hih j hj
    · cases hb : s.buf with
      | nil => rw [hb] at hfull; simp at hfull; omega
      | cons b bs =>
        have hnd := t.ndB
        rw [hb] at hnd
        have hbi : b ≠ i := by rintro rfl; exact hib (by simp [hb])
        have hbm : b ∈ s.buf := by simp [hb]
        rw [hb] at hfull
        refine ⟨b, ?_, ?_, ?_, ?_⟩
        · rcases t.srcB b hbm with h1 | h1
          · left; simp only [St.endW, upd_apply, hbi, if_false]; exact h1
          · right; simp [St.endW, h1]
        · simp only [pushBack, hc, if_false, hfull, if_true, List.tail_cons]
          rw [List.nodup_cons] at hnd
          simp [hnd.1, hbi]
        · simpa [St.endW] using t.bufD b hbm
        · rintro ⟨j, hj1, hj2⟩
          exact (t.hand j b hj1 hj2).1 hbm

theorem Lo.resumeR {s : St} {i : Nat} (h : WF s (some (.r i))) (l : Lo s) : Lo (s.resumeR i) := by
  unfold St.resumeR
  have hx := h.excl
  have hfr := h.rfresh i
  have hc := h.rcur i rfl
  split
  · exact l.failR (by simp)
  · split
    · exact l.failR (by simp)
    · split
      · exact l
      · rename_i hb hd
        refine Lo.wakeWriter hx ?_
        have : Lo { s.endR i (.value _) with buf := s.buf } :=
          l.valR (Or.inr ⟨i, by grind, hd⟩) (fun w hw => Or.inl hw)
        exact this
      · rename_i hb hd
        exact Lo.wakeWriter hx (l.valR (Or.inl (by simp [hb])) (fun w hw => Or.inl (by simp [hb, hw])))
      · rename_i b bs d hb hd
        refine Lo.wakeWriter hx (l.valR (Or.inl (by simp [hb])) (fun w hw => ?_))
        rcases mem_pushBack hw with h1 | h1
        · exact Or.inl (by simp [hb, h1])
        · exact Or.inr ⟨i, by grind, by rw [h1]; exact hd⟩

theorem Lo.resumeW {s : St} {i : Nat} (h : WF s (some (.w i))) (t : TK s (some (.w i))) (l : Lo s) :
    Lo (s.resumeW i) := by
  unfold St.resumeW
  have hx := h.excl
  split
  · exact l.failW
  · split
    · exact l.failW
    · split
      · exact Lo.wakeReader hx l.failW
      · rename_i hd
        exact Lo.wakeReader hx (l.okPush h t (by simpa using hd))

theorem Lo.int {s : St} {c : Option Tok} (h : WF s c) (l : Lo s) (x : Tok) : Lo (s.int x) := by
  cases x with
  | r i =>
    show Lo (s.intR i)
    rw [intR_eq]
    split
    · exact l
    · split
      · generalize hres : (if (s.closed && decide (s.buf = [])) = true then RRes.brokenPipe else RRes.aborted) = res
        have hr : ∀ w, res ≠ .value w := by intro w; subst hres; split <;> simp
        refine l.mono rfl fun w hw => ?_
        apply lost_intro hw <;> simp only [St.endR] <;> grind
      · refine l.mono rfl fun w hw => ?_
        apply lost_intro hw <;> simp only <;> grind
  | w i =>
    show Lo (s.intW i)
    rw [intW_eq]
    split
    · exact l
    · split
      · refine l.mono rfl fun w hw => ?_
        apply lost_intro hw <;> simp only [St.endW] <;> grind
      · refine l.mono rfl fun w hw => ?_
        apply lost_intro hw <;> simp only <;> grind

theorem Lo.hits {s : St} {c : Option Tok} (h : WF s c) (l : Lo s) (ts : List Tok) : Lo (ts.foldl St.int s) := by
  induction ts generalizing s with
  | nil => exact l
  | cons x ts ih => exact ih (h.int x) (l.int h x)

theorem Lo.quiet {s s' : St} (l : Lo s) (ha : s'.asserted = s.asserted) (hb : s'.buf = s.buf)
    (hl : ∃ x, s'.log = s.log ++ x ∧ delivered x = [])
    (hR : ∀ i, (s'.R i).status = .susp → (s'.R i).direct ≠ none →
      (s.R i).status = .susp ∧ (s'.R i).direct = (s.R i).direct)
    (hW : ∀ i, (s.W i).direct = true → (s'.W i).direct = true) : Lo s' := by
  obtain ⟨x, hx, hd⟩ := hl
  refine l.mono ha fun w hw => ?_
  apply lost_intro hw
  · exact hW w
  · intro o ho; rw [hx]; exact List.mem_append_left _ ho
  · intro h; rw [hb] at h; exact Or.inl h
  · intro h; rw [hx, delivered_append, hd, List.append_nil] at h; exact Or.inl h
  · intro j h1 h2
    have := hR j h1 (by rw [h2]; simp)
    exact ⟨this.1, by rw [← this.2]; exact h2⟩

theorem Lo.handR {s : St} {i w : Nat} (h : WF s none) (t : TK s (some (.r i))) (l : Lo s) (txn : Bool)
    (hw : (s.W w).waiting = true) : Lo ((s.takeFrom i w txn).handR i w) := by
  have h2 := h.wwait w hw
  have h3 := h.wlink w h2.2
  have hne : ∀ res, Obs.doneW w res ∉ s.log := by
    intro res hm; have := t.endW w res hm; grind
  refine l.mono rfl fun v hv => ?_
  have hvw : v ≠ w := by
    rintro rfl
    rcases hv.1 with h1 | h1
    · rw [h3.1] at h1; exact absurd h1 (by simp)
    · exact hne _ h1
  apply lost_intro hv <;> simp only [St.takeFrom, St.handR] <;> grind

theorem Lo.handW {s : St} {i j : Nat} (h : WF s none) (t : TK s (some (.w i))) (l : Lo s) (txn : Bool)
    (hf : (s.W i).status = .fresh) : Lo ((s.giveTo i j txn).handW i j) := by
  have h1 := h.wfresh i hf
  have hne : ∀ res, Obs.doneW i res ∉ s.log := by
    intro res hm; have := t.endW i res hm; grind
  refine l.mono rfl fun v hv => ?_
  have hvw : v ≠ i := by
    rintro rfl
    rcases hv.1 with h2 | h2
    · rw [h1] at h2; exact absurd h2 (by simp)
    · exact hne _ h2
  apply lost_intro hv <;> simp only [St.giveTo, St.handW] <;> grind

theorem Lo.step {s : St} (h : WF s none) (t : TK s none) (l : Lo s) (e : Ev) : Lo (s.step e) := by
  by_cases hu : s.ub = true
  · simp [St.step, hu, l]
  · have hu' : s.ub = false := by simpa using hu
    cases e with
    | mkR =>
      simp only [St.step, hu', Bool.false_eq_true, if_false]
      refine l.quiet rfl rfl ⟨[], by simp, rfl⟩ (fun i => ?_) (fun i => ?_) <;> simp only <;> grind
    | mkW =>
      have hn := h.wnew s.nextW (Nat.le_refl _)
      have hd : (s.W s.nextW).direct = false := by rw [hn]
      simp only [St.step, hu', Bool.false_eq_true, if_false]
      refine l.quiet rfl rfl ⟨[], by simp, rfl⟩ (fun i => ?_) (fun i => ?_) <;> simp only <;> grind
    | awaitR i conn txn hits =>
      simp only [St.step, hu', Bool.false_eq_true, if_false]
      rw [awaitR_eq]
      split
      · exact l
      · rename_i hf
        simp only [ne_eq, Decidable.not_not] at hf
        have hl := h.logged (s.log ++ [Obs.startR i])
        have ht := t.startR (i := i)
        have lo : Lo { s with log := s.log ++ [Obs.startR i] } :=
          l.quiet rfl rfl ⟨[.startR i], rfl, rfl⟩ (fun i h1 _ => ⟨h1, rfl⟩) (fun i h1 => h1)
        dsimp only
        split
        · exact lo.resumeR (hl.grabR hf)
        · rename_i hn
          simp only [St.readReady, not_or, Bool.not_eq_true, Bool.or_eq_false_iff] at hn
          split
          · have := h.rfresh i hf
            refine lo.quiet rfl rfl ⟨[], by simp [St.queueR], rfl⟩ (fun i => ?_) (fun i => ?_) <;> simp only [St.queueR] <;> grind
          · rename_i w rest hq
            split
            · rename_i hw
              have hw1 := hl.handR txn hf hn.2 hq hw
              exact ((lo.handR hl ht txn hw).hits hw1 _).resumeW (hw1.hits _) ((ht.handR hl txn hf hw).hits hw1 _)
            · exact lo
    | awaitW i conn txn hits =>
      simp only [St.step, hu', Bool.false_eq_true, if_false]
      rw [awaitW_eq]
      split
      · exact l
      · rename_i hf
        simp only [ne_eq, Decidable.not_not] at hf
        have hl := h.logged (s.log ++ [Obs.startW i])
        have ht := t.startW (i := i)
        have lo : Lo { s with log := s.log ++ [Obs.startW i] } :=
          l.quiet rfl rfl ⟨[.startW i], rfl, rfl⟩ (fun i h1 _ => ⟨h1, rfl⟩) (fun i h1 => h1)
        dsimp only
        split
        · exact lo.resumeW (hl.grabW hf) ht
        · rename_i hn
          simp only [St.writeReady, not_or, Bool.not_eq_true, Bool.or_eq_false_iff] at hn
          have hk : (s.W i).closedF = false := by
            have := h.wclosed i
            have := hn.1.2
            grind
          split
          · refine lo.quiet rfl rfl ⟨[], by simp [St.queueW], rfl⟩ (fun i => ?_) (fun i => ?_) <;> simp only [St.queueW] <;> grind
          · rename_i w rest hq
            split
            · rename_i hw
              have hw1 := hl.handW txn hf hn.2 hk hq hw
              exact ((lo.handW hl ht txn hf).hits hw1 _).resumeR (hw1.hits _)
            · exact lo
    | run k =>
      simp only [St.step, hu', Bool.false_eq_true, if_false]
      unfold St.run
      split
      · exact l
      · rename_i i hk
        exact Lo.resumeR (h.unpost hk) l
      · rename_i i hk
        exact Lo.resumeW (h.unpost hk) (t.unpost h hk) l
    | cancelR i =>
      simp only [St.step, hu', Bool.false_eq_true, if_false]; unfold St.cancelR
      split
      · refine l.quiet rfl rfl ⟨[], by simp, rfl⟩ (fun i => ?_) (fun i => ?_) <;> simp only <;> grind
      · exact l
    | cancelW i =>
      simp only [St.step, hu', Bool.false_eq_true, if_false]; unfold St.cancelW
      split
      · refine l.quiet rfl rfl ⟨[], by simp, rfl⟩ (fun i => ?_) (fun i => ?_) <;> simp only <;> grind
      · exact l
    | intR i => simpa [St.step, hu, St.int] using l.int h (.r i)
    | intW i => simpa [St.step, hu, St.int] using l.int h (.w i)
    | dropR i =>
      simp only [St.step, hu', Bool.false_eq_true, if_false]; unfold St.dropR
      split
      · refine l.quiet rfl rfl ⟨[], by simp, rfl⟩ (fun i => ?_) (fun i => ?_) <;> simp only <;> grind
      · exact l
    | dropW i =>
      simp only [St.step, hu', Bool.false_eq_true, if_false]; unfold St.dropW
      split
      · refine l.quiet rfl rfl ⟨[], by simp, rfl⟩ (fun i => ?_) (fun i => ?_) <;> simp only <;> grind
      · exact l
    | close =>
      simp only [St.step, hu', Bool.false_eq_true, if_false]; unfold St.close
      refine l.quiet rfl rfl ⟨[], by simp, rfl⟩ (fun i => ?_) (fun i => ?_) <;> simp only <;> grind

theorem exec_lo (cap : Nat) (es : List Ev) : (exec cap es).ub = true ∨ Lo (exec cap es) := by
  have h := exec_induction cap (P := fun s => s.ub = true ∨ (WF s none ∧ TK s none ∧ Lo s))
    (Or.inr ⟨WF.init cap, TK.init cap, by simp [Lo, St.init]⟩)
    (by
      intro s e h
      rcases h with h | ⟨h, t, l⟩
      · left; simp [St.step, h]
      · rcases h.step e with h1 | h1
        · exact Or.inl h1
        · rcases t.step h e with h2 | h2
          · exact Or.inl h2
          · exact Or.inr ⟨h1, h2, l.step h t e⟩)
    es
  rcases h with h | ⟨_, _, h⟩
  · exact Or.inl h
  · exact Or.inr h

/-! ## When the assertion fails -/

/-- Write `i`, if it goes on now, finds the buffer full. -/
def St.Overfull (s : St) (i : Nat) : Prop :=
  (s.W i).closedF = false ∧ (s.W i).cancelled = false ∧ (s.W i).direct = false ∧ s.buf.length = s.cap

theorem wakeWriter_ass {s : St} (h : s.rq = [] ∨ s.wq = []) : s.wakeWriter.asserted = s.asserted := by
  unfold St.wakeWriter
  split
  · rfl
  · rename_i w rest hq
    have he : s.rq = [] := by rcases h with h | h <;> simp_all
    simp only [he, ne_eq, not_true_eq_false, decide_false, Bool.or_false]
    split
    · split <;> rfl
    · rfl

theorem wakeReader_ass {s : St} (h : s.rq = [] ∨ s.wq = []) : s.wakeReader.asserted = s.asserted := by
  unfold St.wakeReader
  split
  · rfl
  · rename_i w rest hq
    have he : s.wq = [] := by rcases h with h | h <;> simp_all
    simp only [he, ne_eq, not_true_eq_false, decide_false, Bool.or_false]
    split
    · split <;> rfl
    · rfl

theorem resumeR_ass {s : St} (i : Nat) (h : s.rq = [] ∨ s.wq = []) : (s.resumeR i).asserted = s.asserted := by
  unfold St.resumeR
  split
  · rfl
  · split
    · rfl
    · split
      · rfl
      all_goals (rw [wakeWriter_ass (by exact h)]; rfl)

theorem resumeW_ass {s : St} (i : Nat) (h : s.rq = [] ∨ s.wq = []) :
    (s.resumeW i).asserted = true ↔ s.asserted = true ∨ s.Overfull i := by
  unfold St.resumeW St.Overfull
  split
  · simp_all [St.endW]
  · split
    · simp_all [St.endW]
    · split
      · rw [wakeReader_ass (by exact h)]; simp_all [St.endW]
      · rw [wakeReader_ass (by exact h)]; simp_all

theorem int_ass (s : St) (x : Tok) : (s.int x).asserted = s.asserted := by
  cases x with
  | r i =>
    show (s.intR i).asserted = _
    rw [intR_eq]
    split
    · rfl
    · split <;> rfl
  | w i =>
    show (s.intW i).asserted = _
    rw [intW_eq]
    split
    · rfl
    · split <;> rfl

theorem hits_ass (ts : List Tok) : ∀ s : St, (ts.foldl St.int s).asserted = s.asserted := by
  induction ts with
  | nil => exact fun _ => rfl
  | cons x ts ih => exact fun s => (ih _).trans (int_ass s x)

end Cobalt.Chan
