import Verif.Chan.ExactProps
import Verif.Chan.PropsOrder
import Verif.Chan.LateLemmas
/-! Helper: one producer, one consumer, and no write into a full buffer after closing. -/
namespace Cobalt.Chan

/-- `e` awaits a write made before the channel was closed and not interrupted, on a closed channel whose buffer is full. -/
def LateFull (s : St) (e : Ev) : Prop :=
  match e with
  | .awaitW i .. => s.closed = true ∧ (s.W i).status = .fresh ∧ (s.W i).closedF = false ∧
      (s.W i).cancelled = false ∧ s.buf.length = s.cap
  | _ => False

theorem J.awaitW2 {s : St} (h : WF s none) (t : TK s none) (j : J s none) (l : Last s)
    (hone : ∀ k, (s.W k).status ≠ .susp) (i : Nat) (conn txn : Bool) (hits : List Tok)
    (hpr : ¬ LateFull s (.awaitW i conn txn hits)) :
    (s.awaitW i conn txn hits).ub = true ∨ J (s.awaitW i conn txn hits) none := by
  rw [awaitW_eq]
  split
  · exact Or.inr j
  · rename_i hf
    simp only [ne_eq, Decidable.not_not] at hf
    have hl := h.logged (s.log ++ [Obs.startW i])
    have hlen := h.len
    have hdn := h.wfresh i hf
    have hns : Obs.startW i ∉ s.log := by
      rcases t.noStW i (Or.inl hf) with h | h
      · exact h
      · simp at h
    have hnd : Obs.doneW i .ok ∉ s.log := by
      intro hm; have := t.endW i _ hm; grind
    dsimp only
    split
    · rename_i hc
      have hp : s.buf.length < s.cap ∨ (s.W i).closedF = true ∨ (s.W i).cancelled = true := by
        simp [St.writeReady] at hc
        rcases hc with (hc | hc) | hc
        · left; omega
        · apply Classical.byContradiction
          intro hn
          simp only [not_or, Bool.not_eq_true] at hn
          exact hpr ⟨hc, hf, hn.2.1, hn.2.2, by omega⟩
        · right; right; exact hc
      have hj : J { s with log := s.log ++ [Obs.startW i] } (some (.w i)) :=
        ⟨j.toJC.startW hone hp hns hnd, j.rqb, j.wqb⟩
      exact hj.resumeW' (hl.grabW hf) t.startW (l.shr (shr_id rfl rfl rfl rfl))
    · rename_i hc
      simp only [St.writeReady, not_or, Bool.not_eq_true, Bool.or_eq_false_iff] at hc
      have hb : s.buf.length = s.cap := by simpa using hc.1.1
      have hk : (s.W i).closedF = false := by
        have := h.wclosed i
        have := hc.1.2
        grind
      split
      · rename_i hq
        exact Or.inr ⟨j.toJC.queueW h hone hf hns hnd conn txn, fun hw => absurd hq hw, fun _ => hb⟩
      · rename_i w rest hq
        by_cases hw : (s.R w).waiting = true
        · rw [if_pos hw]
          have hb0 : s.buf = [] := j.rqb (by simp [hq])
          have hcap : s.cap = 0 := by simpa [hb0] using hb.symm
          have hr : s.wq = [] := by have := h.excl; simp [hq] at this; exact this
          have hj : J ((({ s with log := s.log ++ [Obs.startW i] } : St).giveTo i w txn).handW i w) (some (.r w)) :=
            ⟨j.toJC.handW h hone hns hnd hf hw hcap txn, fun _ => hb0, fun _ => by simp [St.giveTo, St.handW, hb0, hcap]⟩
          have hw1 := hl.handW txn hf hc.2 hk hq hw
          right
          apply (hj.hits hw1 _).resumeR (hw1.hits _)
          rw [(hits_rq _ _).2]
          simp [St.giveTo, St.handW, hr]
        · rw [if_neg hw]; exact Or.inl rfl

theorem J.step2 {s : St} (h : WF s none) (t : TK s none) (j : J s none) (l : Last s) (e : Ev)
    (hp : ¬ LateFull s e) (ho : Spsc s [e]) : (s.step e).ub = true ∨ J (s.step e) none := by
  have hu := j.ub
  cases e with
  | awaitR i c x hs => simp only [St.step, hu, Bool.false_eq_true, if_false]; exact j.awaitR' h t l ho.1 i c x hs
  | awaitW i c x hs => simp only [St.step, hu, Bool.false_eq_true, if_false]; exact j.awaitW2 h t l ho.1 i c x hs hp
  | run k => simp only [St.step, hu, Bool.false_eq_true, if_false]; exact j.run' h t l k
  | dropR i => exact Or.inr (j.step_quiet h t (.dropR i) ⟨trivial, trivial⟩ ho rfl)
  | dropW i => exact Or.inr (j.step_quiet h t (.dropW i) ⟨trivial, trivial⟩ ho rfl)
  | mkR => exact Or.inr (j.step_quiet h t .mkR ⟨trivial, trivial⟩ ho rfl)
  | mkW => exact Or.inr (j.step_quiet h t .mkW ⟨trivial, trivial⟩ ho rfl)
  | cancelR i => exact Or.inr (j.step_quiet h t (.cancelR i) ⟨trivial, trivial⟩ ho rfl)
  | cancelW i => exact Or.inr (j.step_quiet h t (.cancelW i) ⟨trivial, trivial⟩ ho rfl)
  | intR i => exact Or.inr (j.step_quiet h t (.intR i) ⟨trivial, trivial⟩ ho rfl)
  | intW i => exact Or.inr (j.step_quiet h t (.intW i) ⟨trivial, trivial⟩ ho rfl)
  | close => exact Or.inr (j.step_quiet h t .close ⟨trivial, trivial⟩ ho rfl)


theorem ub_prefix {cap : Nat} {a b : List Ev} (h : (exec cap (a ++ b)).ub = false) : (exec cap a).ub = false := by
  cases hu : (exec cap a).ub with
  | false => rfl
  | true =>
    have := steps_ub_mono b _ hu
    rw [exec, steps_append] at h
    rw [show (St.init cap).steps a = exec cap a from rfl, this] at h
    cases h

theorem spsc_prefix (a : List Ev) : ∀ {s : St} {b : List Ev}, Spsc s (a ++ b) → Spsc s a ∧ Spsc (s.steps a) b := by
  induction a with
  | nil => intro s b h; exact ⟨trivial, h⟩
  | cons e a ih =>
    intro s b h
    obtain ⟨h1, h2⟩ := h
    obtain ⟨h3, h4⟩ := ih h2
    exact ⟨⟨h1, h3⟩, h4⟩

/-- A failed assertion is never forgotten. -/
theorem asserted_mono {cap : Nat} (b : List Ev) : ∀ {a : List Ev}, (exec cap (a ++ b)).ub = false →
    (exec cap a).asserted = true → (exec cap (a ++ b)).asserted = true := by
  induction b with
  | nil => intro a _ h; simpa using h
  | cons e b ih =>
    intro a hu h
    have hu' : (exec cap a).ub = false := ub_prefix hu
    rw [show a ++ e :: b = (a ++ [e]) ++ b by simp] at hu ⊢
    refine ih hu ?_
    rw [show exec cap (a ++ [e]) = (exec cap a).step e from steps_snoc _ _ _]
    exact (C05_when cap a hu' e).2 (.inl h)

theorem spsc2 {cap : Nat} {es : List Ev} (hs : Spsc (St.init cap) es) (hu : (exec cap es).ub = false)
    (hn : ¬ ∃ a e b, es = a ++ e :: b ∧ LateFull (exec cap a) e) : J (exec cap es) none ∧ Last (exec cap es) := by
  suffices ∀ l : List Ev, Spsc (St.init cap) l.reverse → (exec cap l.reverse).ub = false →
      (¬ ∃ a e b, l.reverse = a ++ e :: b ∧ LateFull (exec cap a) e) → J (exec cap l.reverse) none ∧ Last (exec cap l.reverse) by
    have := this es.reverse
    rw [List.reverse_reverse] at this
    exact this hs hu hn
  intro l
  induction l with
  | nil => intro _ _ _; exact ⟨J.init cap, by simp [exec, St.steps, St.init], by simp [exec, St.steps, St.init]⟩
  | cons e l ih =>
    rw [List.reverse_cons]
    intro hs hu hn
    have hu' : (exec cap l.reverse).ub = false := ub_prefix hu
    obtain ⟨h1, h2⟩ := spsc_prefix l.reverse hs
    obtain ⟨j, la⟩ := ih h1 hu' (by
      rintro ⟨a, x, b, h, hl⟩
      exact hn ⟨a, x, b ++ [e], by rw [h]; simp, hl⟩)
    obtain ⟨w, t⟩ := reach hu'
    rw [show exec cap (l.reverse ++ [e]) = (exec cap l.reverse).step e from steps_snoc _ _ _] at hu ⊢
    refine ⟨(j.step2 w t la e (fun h => hn ⟨l.reverse, e, [], rfl, h⟩) h2).resolve_left (by simp [hu]), la.step w e h2⟩

/-- A write whose value was handed over has not ended, or has ended with success. -/
def Dw (s : St) : Prop := ∀ w, (s.W w).direct = true → (s.W w).status = .susp ∨ Obs.doneW w .ok ∈ s.log

theorem Dw.of {s s' : St} (d : Dw s) (h : ∀ w, (s'.W w).direct = true → (s.W w).direct = true ∧
    ((s.W w).status = .susp → (s'.W w).status = .susp)) (hl : ∀ o, o ∈ s.log → o ∈ s'.log) : Dw s' := by
  intro w hw
  obtain ⟨h1, h2⟩ := h w hw
  exact (d w h1).imp h2 (hl _)

theorem Dw.wakeWriter {s : St} (d : Dw s) : Dw s.wakeWriter := by
  unfold St.wakeWriter
  split
  · exact d
  · dsimp only
    split
    · split
      · refine d.of (fun w hw => ?_) (fun _ => id)
        simp only at hw ⊢
        grind
      · exact d
    · exact d

theorem Dw.wakeReader {s : St} (d : Dw s) : Dw s.wakeReader := by
  unfold St.wakeReader
  split
  · exact d
  · dsimp only
    split
    · split
      · exact d
      · exact d
    · exact d

theorem Dw.endR {s : St} (d : Dw s) (i : Nat) (res : RRes) (b : List Nat) : Dw { s.endR i res with buf := b } :=
  d.of (fun _ hw => ⟨hw, id⟩) (fun o ho => by simp [St.endR, ho])

theorem Dw.resumeR {s : St} (d : Dw s) (i : Nat) : Dw (s.resumeR i) := by
  unfold St.resumeR
  split
  · exact d.endR i _ s.buf
  · split
    · exact d.endR i _ s.buf
    · split
      · exact d
      · exact (d.endR i _ s.buf).wakeWriter
      · exact (d.endR i _ _).wakeWriter
      · exact (d.endR i _ _).wakeWriter

theorem Dw.endW {s : St} (d : Dw s) (i : Nat) (res : WRes) (h : (s.W i).direct = true → res = .ok) (b : List Nat) (a : Bool) :
    Dw { s.endW i res with buf := b, asserted := a } := by
  intro w hw
  have := d w
  simp only [St.endW] at hw ⊢
  grind

theorem Dw.resumeW {s : St} {c : Option Tok} (h : WF s c) (d : Dw s) (i : Nat) : Dw (s.resumeW i) := by
  have hd := h.wdir i
  unfold St.resumeW
  split
  · exact d.endW i _ (by grind) s.buf s.asserted
  · split
    · exact d.endW i _ (by grind) s.buf s.asserted
    · split
      · exact (d.endW i _ (fun _ => rfl) s.buf s.asserted).wakeReader
      · exact (d.endW i _ (fun _ => rfl) _ _).wakeReader

theorem Dw.int {s : St} (d : Dw s) (x : Tok) : Dw (s.int x) := by
  cases x with
  | r j =>
    simp only [St.int, intR_eq]
    split
    · exact d
    · split
      · exact d.of (fun _ hw => ⟨hw, id⟩) (fun o ho => by simp [St.endR, ho])
      · exact d
  | w j =>
    simp only [St.int, intW_eq]
    split
    · exact d
    · split
      · refine d.of (fun w hw => ?_) (fun o ho => by simp [St.endW, ho])
        simp only [St.endW] at hw ⊢
        grind
      · refine d.of (fun w hw => ?_) (fun _ => id)
        simp only at hw ⊢
        grind

theorem Dw.hits (ts : List Tok) : ∀ {s : St}, Dw s → Dw (ts.foldl St.int s) := by
  induction ts with
  | nil => intro s d; exact d
  | cons x ts ih => intro s d; exact ih (d.int x)

theorem Dw.step {s : St} (h : WF s none) (d : Dw s) (hu : s.ub = false) (e : Ev) : Dw (s.step e) := by
  unfold St.step
  rw [if_neg (by simp [hu])]
  cases e with
  | mkR => exact d
  | mkW =>
    have h1 := h.wnew s.nextW (Nat.le_refl _)
    refine d.of (fun w hw => ?_) (fun _ => id)
    simp only at hw ⊢
    grind
  | awaitR i c t l =>
    dsimp only
    rw [awaitR_eq]
    have d1 : Dw { s with log := s.log ++ [Obs.startR i] } :=
      d.of (fun _ hw => ⟨hw, id⟩) (fun o ho => by simp [ho])
    split
    · exact d
    · rename_i hf
      simp only [ne_eq, Decidable.not_not] at hf
      have hl := h.logged (s.log ++ [Obs.startR i])
      dsimp only
      split
      · exact d1.resumeR i
      · rename_i hn
        simp only [St.readReady, not_or, Bool.not_eq_true, Bool.or_eq_false_iff] at hn
        split
        · exact d1.of (fun _ hw => ⟨hw, id⟩) (fun o ho => ho)
        · rename_i w rest hq
          split
          · rename_i hw
            have hw1 := hl.handR t hf hn.2 hq hw
            refine Dw.resumeW (hw1.hits _) (Dw.hits _ ?_) w
            intro v hv
            have := d1 v
            have := (h.wwait w hw).1
            simp only [St.takeFrom, St.handR] at hv ⊢
            grind
          · exact d1
  | awaitW i c t l =>
    dsimp only
    rw [awaitW_eq]
    have d1 : Dw { s with log := s.log ++ [Obs.startW i] } :=
      d.of (fun _ hw => ⟨hw, id⟩) (fun o ho => by simp [ho])
    split
    · exact d
    · rename_i hf
      simp only [ne_eq, Decidable.not_not] at hf
      have hl := h.logged (s.log ++ [Obs.startW i])
      have hdn := h.wfresh i hf
      dsimp only
      split
      · exact Dw.resumeW hl d1 i
      · rename_i hn
        simp only [St.writeReady, not_or, Bool.not_eq_true, Bool.or_eq_false_iff] at hn
        split
        · refine d1.of (fun w hw => ?_) (fun o ho => ho)
          simp only [St.queueW] at hw ⊢
          grind
        · rename_i w rest hq
          split
          · refine Dw.resumeR (Dw.hits _ ?_) w
            intro v hv
            have := d1 v
            simp only [St.giveTo, St.handW] at hv ⊢
            grind
          · exact d1
  | run k =>
    dsimp only
    unfold St.run
    split
    · exact d
    · exact Dw.resumeR (s := { s with posted := s.posted.eraseIdx k }) d _
    · rename_i i hk
      exact Dw.resumeW (s := { s with posted := s.posted.eraseIdx k }) (h.unpost hk) d _
  | cancelR i =>
    dsimp only
    unfold St.cancelR
    split <;> exact d
  | cancelW i =>
    dsimp only
    unfold St.cancelW
    split
    · refine d.of (fun w hw => ?_) (fun _ => id)
      simp only at hw ⊢
      grind
    · exact d
  | intR i => exact d.int (.r i)
  | intW i => exact d.int (.w i)
  | dropR i =>
    dsimp only
    unfold St.dropR
    split <;> exact d
  | dropW i =>
    dsimp only
    unfold St.dropW
    split
    · intro w hw
      have := d w
      simp only at hw ⊢
      grind
    · exact d
  | close =>
    refine d.of (fun w hw => ?_) (fun _ => id)
    simp only [St.close] at hw ⊢
    grind

theorem exec_dw (cap : Nat) (es : List Ev) : (exec cap es).ub = true ∨ Dw (exec cap es) := by
  suffices ∀ l : List Ev, (exec cap l.reverse).ub = true ∨ Dw (exec cap l.reverse) by
    have := this es.reverse
    rw [List.reverse_reverse] at this
    exact this
  intro l
  induction l with
  | nil => right; intro w hw; simp [exec, St.steps, St.init] at hw
  | cons e l ih =>
    rw [List.reverse_cons, show exec cap (l.reverse ++ [e]) = (exec cap l.reverse).step e from steps_snoc _ _ _]
    rcases ih with ih | ih
    · left; simp [St.step, ih]
    · cases hu : (exec cap l.reverse).ub with
      | true => left; simp [St.step, hu]
      | false => exact .inr (ih.step (reach hu).1 hu e)

end Cobalt.Chan
