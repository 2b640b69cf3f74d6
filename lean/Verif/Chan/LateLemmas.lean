import Verif.Chan.Closed
/-! Helper: which successful writes of a channel with limit 0 were handed over. -/
namespace Cobalt.Chan

/-- `e` awaits write `w`, made before the channel was closed and not interrupted, on a closed channel. -/
def LateEv (s : St) (e : Ev) (w : Nat) : Prop :=
  match e with
  | .awaitW i .. => i = w ∧ s.closed = true ∧ (s.W w).status = .fresh ∧ (s.W w).closedF = false ∧
      (s.W w).cancelled = false
  | _ => False

/-- In the course of `es` write `w` was awaited like that. -/
def LateIn (cap : Nat) (es : List Ev) (w : Nat) : Prop :=
  ∃ es₁ e es₂, es = es₁ ++ e :: es₂ ∧ LateEv (exec cap es₁) e w

theorem lateIn_snoc (cap : Nat) (es : List Ev) (e : Ev) (w : Nat) :
    LateIn cap (es ++ [e]) w ↔ LateIn cap es w ∨ LateEv (exec cap es) e w := by
  constructor
  · rintro ⟨a, x, b, h, hl⟩
    rcases List.eq_nil_or_concat b with rfl | ⟨b', y, rfl⟩
    · obtain ⟨rfl, h2⟩ := List.append_inj' h rfl
      cases h2
      exact .inr hl
    · refine .inl ⟨a, x, b', ?_, hl⟩
      rw [List.concat_eq_append, show a ++ x :: (b' ++ [y]) = (a ++ x :: b') ++ [y] by simp] at h
      exact (List.append_inj' h rfl).1
  · rintro (⟨a, x, b, rfl, hl⟩ | hl)
    · exact ⟨a, x, b ++ [e], by simp, hl⟩
    · exact ⟨es, e, [], rfl, hl⟩

structure X0 (L : Nat → Prop) (s : St) (cur : Option Tok) : Prop where
  postW : ∀ i, Tok.w i ∈ s.posted ∨ cur = some (.w i) →
    (s.W i).direct = true ∨ (s.W i).cancelled = true ∨ (s.W i).closedF = true
  ok : ∀ w, Obs.doneW w .ok ∈ s.log → (s.W w).direct = true ∨ L w
  src : ∀ w, (s.W w).direct = true → ∃ i, (s.R i).direct = some w ∧
    ((s.R i).status = .susp ∨ Obs.doneR i (.value w) ∈ s.log)
  late : ∀ w, L w → Obs.doneW w .ok ∈ s.log ∧ (s.W w).direct = false
  ass : s.asserted = true ↔ ∃ w, L w

variable {L : Nat → Prop}

theorem X0.int {s : St} {cur : Option Tok} (h : WF s cur) (q : X0 L s cur) (x : Tok) : X0 L (s.int x) cur := by
  obtain ⟨q1, q2, q3, q4, q5⟩ := q
  have h2 := h.wpost
  have h3 := h.wcur
  cases x with
  | r j =>
    simp only [St.int, intR_eq]
    split
    · exact ⟨q1, q2, q3, q4, q5⟩
    · rename_i hd
      have hr : ∀ w, (s.W w).direct = true → ∃ i, i ≠ j ∧ (s.R i).direct = some w ∧
          ((s.R i).status = .susp ∨ Obs.doneR i (.value w) ∈ s.log) := by
        intro w hw
        obtain ⟨i, hi, hi'⟩ := q3 w hw
        refine ⟨i, ?_, hi, hi'⟩
        rintro rfl
        simp [hi] at hd
      split
      · simp only [St.endR]
        refine ⟨?_, ?_, ?_, ?_, q5⟩
        · exact q1
        · intro w hw
          exact q2 w (by simpa using hw)
        · intro w hw
          obtain ⟨i, hij, hi, hi'⟩ := hr w hw
          exact ⟨i, by simp only [upd_apply, if_neg hij]; exact hi, by
            simp only [upd_apply, if_neg hij, List.mem_append]; exact hi'.imp_right .inl⟩
        · intro w hw
          exact ⟨by simpa using (q4 w hw).1, (q4 w hw).2⟩
      · refine ⟨?_, ?_, ?_, ?_, q5⟩
        · exact q1
        · exact q2
        · intro w hw
          obtain ⟨i, hij, hi, hi'⟩ := hr w hw
          exact ⟨i, by simp only [upd_apply, if_neg hij]; exact hi, by
            simp only [upd_apply, if_neg hij]; exact hi'⟩
        · exact q4
  | w j =>
    simp only [St.int, intW_eq]
    split
    · exact ⟨q1, q2, q3, q4, q5⟩
    · rename_i hd
      split
      · simp only [St.endW]
        refine ⟨?_, ?_, ?_, ?_, q5⟩
        · intro i hi
          have := q1 i hi
          simp only at this ⊢
          grind
        · intro w hw
          have := q2 w
          simp only at hw ⊢
          grind
        · intro w hw
          have := q3 w
          simp only at hw ⊢
          grind
        · intro w hw
          have := q4 w hw
          simp only
          grind
      · refine ⟨?_, ?_, ?_, ?_, q5⟩
        · intro i hi
          have := q1 i hi
          simp only at this ⊢
          grind
        · intro w hw
          have := q2 w
          simp only at hw ⊢
          grind
        · intro w hw
          have := q3 w
          simp only at hw ⊢
          grind
        · intro w hw
          have := q4 w hw
          simp only
          grind

theorem X0.hits {s : St} {cur : Option Tok} (h : WF s cur) (q : X0 L s cur) (ts : List Tok) :
    X0 L (ts.foldl St.int s) cur := by
  induction ts generalizing s with
  | nil => exact q
  | cons x ts ih => exact ih (h.int x) (q.int h x)

theorem X0.resumeR {s : St} {i : Nat} (h : I0 s (some (.r i))) (q : X0 L s (some (.r i))) :
    X0 L (s.resumeR i) none := by
  obtain ⟨q1, q2, q3, q4, q5⟩ := q
  rw [h.z.resumeR_eq h.wf]
  split <;>
  · rename_i hdir
    simp only [St.endR]
    refine ⟨?_, ?_, ?_, ?_, q5⟩
    · intro j hj
      exact q1 j (by simpa using hj)
    · intro w hw
      exact q2 w (by simpa using hw)
    · intro w hw
      obtain ⟨j, hj, hj'⟩ := q3 w hw
      refine ⟨j, ?_, ?_⟩
      · simp only [upd_apply]
        split <;> simp_all
      · simp only [upd_apply]
        by_cases hji : j = i
        · subst hji
          right
          rw [hdir] at hj
          first
          | cases hj
            simp
          | cases hj
        · rw [if_neg hji]
          exact hj'.imp_right fun h => by simp [h]
    · intro w hw
      exact ⟨by simpa using (q4 w hw).1, (q4 w hw).2⟩

theorem X0.resumeW {s : St} {i : Nat} (h : I0 s (some (.w i))) (q : X0 L s (some (.w i))) :
    X0 L (s.resumeW i) none := by
  obtain ⟨q1, q2, q3, q4, q5⟩ := q
  have hi := q1 i (.inr rfl)
  rw [h.z.resumeW_eq h.wf]
  have key : ∀ (res : WRes) (a : Bool), (res = .ok → (s.W i).direct = true) → a = s.asserted →
      X0 L { s.endW i res with asserted := a } none := by
    intro res a hres ha
    simp only [St.endW]
    refine ⟨?_, ?_, ?_, ?_, by rw [ha]; exact q5⟩
    · intro j hj
      have := q1 j
      simp only at hj ⊢
      grind
    · intro w hw
      have := q2 w
      simp only [List.mem_append, List.mem_singleton, Obs.doneW.injEq] at hw ⊢
      rcases hw with hw | ⟨rfl, hr⟩
      · grind
      · left; simp [upd_apply, hres hr.symm]
    · intro w hw
      have := q3 w
      simp only at hw ⊢
      grind
    · intro w hw
      have := q4 w hw
      simp only
      grind
  split
  · exact key _ s.asserted (by simp) rfl
  · split
    · exact key _ s.asserted (by simp) rfl
    · have hd : (s.W i).direct = true := by grind
      exact key _ _ (fun _ => hd) (by simp [hd])

/-- A late write reports success. -/
theorem X0.lateW {s : St} {i : Nat} (h : I0 s (some (.w i))) (q : X0 L s none) (hc : (s.W i).closedF = false)
    (ha : (s.W i).cancelled = false) (hd : (s.W i).direct = false) :
    X0 (fun w => L w ∨ w = i) (s.resumeW i) none := by
  obtain ⟨q1, q2, q3, q4, q5⟩ := q
  rw [h.z.resumeW_eq h.wf, hc, ha]
  simp only [Bool.false_eq_true, if_false, St.endW]
  refine ⟨?_, ?_, ?_, ?_, ⟨fun _ => ⟨i, .inr rfl⟩, fun _ => by simp [hd]⟩⟩
  · intro j hj
    have := q1 j
    simp only at hj ⊢
    grind
  · intro w hw
    have := q2 w
    simp only at hw ⊢
    grind
  · intro w hw
    have := q3 w
    simp only at hw ⊢
    grind
  · intro w hw
    have := q4 w
    simp only
    grind

theorem X0.mono {L' : Nat → Prop} {s : St} {cur : Option Tok} (q : X0 L s cur) (h : ∀ w, L' w ↔ L w) : X0 L' s cur := by
  have : L' = L := funext fun w => propext (h w)
  rw [this]
  exact q

theorem X0.awaitR {s : St} (h : I0 s none) (q : X0 L s none) (i : Nat) (conn txn : Bool) (hits : List Tok) :
    (s.awaitR i conn txn hits).ub = true ∨ X0 L (s.awaitR i conn txn hits) none := by
  obtain ⟨q1, q2, q3, q4, q5⟩ := q
  rw [awaitR_eq]
  split
  · exact Or.inr ⟨q1, q2, q3, q4, q5⟩
  · rename_i hf
    simp only [ne_eq, Decidable.not_not] at hf
    have hns : Obs.startR i ∉ s.log := by
      rcases h.tk.noStR i (Or.inl hf) with h | h
      · exact h
      · simp at h
    have hl := h.wf.logged (s.log ++ [Obs.startR i])
    have ht := h.tk.startR (i := i)
    have ho : Ord { s with log := s.log ++ [Obs.startR i] } :=
      h.o.frame (m := [_]) rfl (List.Sublist.refl _) (List.Sublist.refl _) (fun _ => rfl)
    have hlast : ∀ a, a ∈ s.log ++ [Obs.startR i] → a ≠ .startR i →
        (s.log ++ [Obs.startR i]).idxOf a < (s.log ++ [Obs.startR i]).idxOf (.startR i) := by
      intro a ha hne
      have := at_last hns
      rw [this.1]
      apply this.2
      simp only [List.mem_append, List.mem_singleton] at ha
      rcases ha with ha | ha
      · exact ha
      · exact absurd ha hne
    have q3' : ∀ w, (s.W w).direct = true → ∃ j, (s.R j).direct = some w ∧
        ((s.R j).status = .susp ∨ Obs.doneR j (.value w) ∈ s.log ++ [Obs.startR i]) := by
      intro w hw
      obtain ⟨j, h1, h2⟩ := q3 w hw
      exact ⟨j, h1, h2.imp_right fun h => by simp [h]⟩
    dsimp only
    split
    · rename_i hn
      right
      have hI : I0 { s with log := s.log ++ [Obs.startR i] } (some (.r i)) := by
        refine ⟨hl.grabR hf, ht, ?_, ho, h.ub⟩
        have hz := h.z
        have hb := hz.buf0
        simp only [St.readReady, hb] at hn
        constructor
        all_goals (cases hz; simp only at *; grind)
      apply X0.resumeR hI
      exact ⟨fun j hj => q1 j (by simpa using hj), fun w hw => q2 w (by simpa using hw), q3',
        fun w hw => ⟨by simpa using (q4 w hw).1, (q4 w hw).2⟩, q5⟩
    · rename_i hn
      simp only [St.readReady, not_or, Bool.not_eq_true, Bool.or_eq_false_iff] at hn
      have hdn := h.wf.rfresh i hf
      have hnr : i ∉ s.rq := by have := h.wf.rlink i; grind
      have hr3 : ∀ w, (s.W w).direct = true → ∃ j, j ≠ i ∧ (s.R j).direct = some w ∧
          ((s.R j).status = .susp ∨ Obs.doneR j (.value w) ∈ s.log ++ [Obs.startR i]) := by
        intro w hw
        obtain ⟨j, hj, hj'⟩ := q3' w hw
        refine ⟨j, ?_, hj, hj'⟩
        rintro rfl
        simp [hj] at hdn
      split
      · right
        simp only [St.queueR]
        refine ⟨q1, fun w hw => q2 w (by simpa using hw), fun w hw => ?_,
          fun w hw => ⟨by simpa using (q4 w hw).1, (q4 w hw).2⟩, q5⟩
        obtain ⟨j, hj, hj', hj''⟩ := hr3 w hw
        exact ⟨j, by simp only [upd_apply, if_neg hj]; exact hj', by simp only [upd_apply, if_neg hj]; exact hj''⟩
      · rename_i w rest hq
        split
        · rename_i hw
          right
          have hw1 := hl.handR txn hf hn.2 hq hw
          have hr : s.rq = [] := by
            rcases h.wf.excl with h | h
            · exact h
            · rw [hq] at h; simp at h
          have hI : I0 (({ s with log := s.log ++ [Obs.startR i] }.takeFrom i w txn).handR i w) (some (.w w)) := by
            refine ⟨hw1, ht.handR hl txn hf hw, ?_,
              ho.handR txn (by simp) hdn hlast hr hq, h.ub⟩
            have hz := h.z
            have h3 : ∀ v, Obs.doneR i v ∉ s.log := by
              intro v hv
              have := h.tk.endR i v hv
              simp [hf] at this
            constructor
            all_goals (cases hz; simp only [St.takeFrom, St.handR] at *; grind)
          apply X0.resumeW (hI.hits _)
          apply X0.hits hw1
          have hws := (h.wf.wwait w hw).1
          have hnd : ∀ r, Obs.doneW w r ∉ s.log := by
            intro r hr
            have := h.tk.endW w r hr
            simp [hws] at this
          simp only [St.takeFrom, St.handR]
          refine ⟨?_, ?_, ?_, ?_, q5⟩
          · intro j hj
            have := q1 j
            simp only at hj ⊢
            grind
          · intro v hv
            have := q2 v
            simp only at hv ⊢
            grind
          · intro v hv
            by_cases hvw : v = w
            · exact ⟨i, by simp [upd_apply, hvw], .inl (by simp [upd_apply])⟩
            · simp only [upd_apply, if_neg hvw] at hv
              obtain ⟨j, hj, hj', hj''⟩ := hr3 v hv
              exact ⟨j, by simp only [upd_apply, if_neg hj]; exact hj', by simp only [upd_apply, if_neg hj]; exact hj''⟩
          · intro v hv
            have h4 := q4 v hv
            have hne : v ≠ w := by
              rintro rfl
              exact hnd _ h4.1
            simp only [upd_apply, if_neg hne]
            exact ⟨by simpa using h4.1, h4.2⟩
        · exact .inl rfl

theorem X0.awaitW {s : St} (h : I0 s none) (q : X0 L s none) (i : Nat) (conn txn : Bool) (hits : List Tok) :
    (s.awaitW i conn txn hits).ub = true ∨
      X0 (fun w => L w ∨ LateEv s (.awaitW i conn txn hits) w) (s.awaitW i conn txn hits) none := by
  have q0 := q
  obtain ⟨q1, q2, q3, q4, q5⟩ := q
  rw [awaitW_eq]
  split
  · rename_i hf
    refine Or.inr (q0.mono fun w => ⟨?_, .inl⟩)
    rintro (h | ⟨rfl, -, h, -⟩)
    · exact h
    · exact absurd h hf
  · rename_i hf
    simp only [ne_eq, Decidable.not_not] at hf
    have hns : Obs.startW i ∉ s.log := by
      rcases h.tk.noStW i (Or.inl hf) with h | h
      · exact h
      · simp at h
    have hl := h.wf.logged (s.log ++ [Obs.startW i])
    have ht := h.tk.startW (i := i)
    have ho : Ord { s with log := s.log ++ [Obs.startW i] } :=
      h.o.frame (m := [_]) rfl (List.Sublist.refl _) (List.Sublist.refl _) (fun _ => rfl)
    have hlast : ∀ a, a ∈ s.log ++ [Obs.startW i] → a ≠ .startW i →
        (s.log ++ [Obs.startW i]).idxOf a < (s.log ++ [Obs.startW i]).idxOf (.startW i) := by
      intro a ha hne
      have := at_last hns
      rw [this.1]
      apply this.2
      simp only [List.mem_append, List.mem_singleton] at ha
      rcases ha with ha | ha
      · exact ha
      · exact absurd ha hne
    have hz1 : Z0 { s with log := s.log ++ [Obs.startW i] } (some (.w i)) := by
      have hz := h.z
      constructor
      all_goals (cases hz; simp only at *; grind)
    have hdn := h.wf.wfresh i hf
    have hnd : ∀ r, Obs.doneW i r ∉ s.log := by
      intro r hr
      have := h.tk.endW i r hr
      simp [hf] at this
    have q3' : ∀ w, (s.W w).direct = true → ∃ j, (s.R j).direct = some w ∧
        ((s.R j).status = .susp ∨ Obs.doneR j (.value w) ∈ s.log ++ [Obs.startW i]) := by
      intro w hw
      obtain ⟨j, h1, h2⟩ := q3 w hw
      exact ⟨j, h1, h2.imp_right fun h => by simp [h]⟩
    dsimp only
    split
    · rename_i hn
      right
      have hI : I0 { s with log := s.log ++ [Obs.startW i] } (some (.w i)) :=
        ⟨hl.grabW hf, ht, hz1, ho, h.ub⟩
      by_cases hlt : s.closed = true ∧ (s.W i).closedF = false ∧ (s.W i).cancelled = false
      · have hx : X0 L { s with log := s.log ++ [Obs.startW i] } none :=
          ⟨q1, fun w hw => q2 w (by simpa using hw), q3', fun w hw => ⟨by simpa using (q4 w hw).1, (q4 w hw).2⟩, q5⟩
        refine (X0.lateW hI hx hlt.2.1 hlt.2.2 hdn).mono fun w => ?_
        constructor
        · rintro (h | ⟨rfl, -⟩)
          · exact .inl h
          · exact .inr rfl
        · rintro (h | rfl)
          · exact .inl h
          · exact .inr ⟨rfl, hlt.1, hf, hlt.2.1, hlt.2.2⟩
      · have hx : X0 L { s with log := s.log ++ [Obs.startW i] } (some (.w i)) := by
          refine ⟨fun j hj => ?_, fun w hw => q2 w (by simpa using hw), q3',
            fun w hw => ⟨by simpa using (q4 w hw).1, (q4 w hw).2⟩, q5⟩
          have := q1 j
          have hb := h.z.buf0
          have hc := h.z.cap0
          simp only [St.writeReady, hb, hc] at hn
          simp only at hj
          grind
        refine (X0.resumeW hI hx).mono fun w => ⟨?_, .inl⟩
        rintro (h | ⟨rfl, a, -, b, c⟩)
        · exact h
        · exact absurd ⟨a, b, c⟩ hlt
    · rename_i hn
      simp only [St.writeReady, not_or, Bool.not_eq_true, Bool.or_eq_false_iff] at hn
      have hnol : ∀ w, (L w ∨ LateEv s (.awaitW i conn txn hits) w) ↔ L w := by
        intro w
        refine ⟨?_, .inl⟩
        rintro (h | ⟨rfl, a, -⟩)
        · exact h
        · rw [hn.1.2] at a; cases a
      have hnr : i ∉ s.wq := by have := h.wf.wlink i; grind
      have hih : ∀ j, (s.R j).direct ≠ some i := by intro j hj; have := h.tk.dirW j i hj; grind
      have hk : (s.W i).closedF = false := by
        have := h.wf.wclosed i
        have := hn.1.2
        grind
      have hnL : ¬ L i := fun h => hnd _ (q4 i h).1
      split
      · rename_i hq
        right
        refine X0.mono ?_ hnol
        have := h.wf.wpost i
        simp only [St.queueW]
        refine ⟨?_, ?_, ?_, ?_, q5⟩
        · intro j hj
          have := q1 j
          simp only at hj ⊢
          grind
        · intro v hv
          have := q2 v
          simp only at hv ⊢
          grind
        · intro v hv
          have := q3 v
          simp only at hv ⊢
          grind
        · intro v hv
          have := q4 v hv
          simp only
          grind
      · rename_i w rest hq
        split
        · rename_i hw
          right
          refine X0.mono ?_ hnol
          have hw1 := hl.handW txn hf hn.2 hk hq hw
          have hr : s.wq = [] := by
            rcases h.wf.excl with h | h
            · rw [hq] at h; simp at h
            · exact h
          have hrl := h.wf.rlink w (by simp [hq])
          have hI : I0 (({ s with log := s.log ++ [Obs.startW i] }.giveTo i w txn).handW i w) (some (.r w)) := by
            refine ⟨hw1, ht.handW hl txn hf hw, ?_,
              ho.handW txn (by simp) hih hrl.1 hlast hr hq, h.ub⟩
            have hz := h.z
            constructor
            all_goals (cases hz; simp only [St.giveTo, St.handW] at *; grind)
          apply X0.resumeR (hI.hits _)
          apply X0.hits hw1
          simp only [St.giveTo, St.handW]
          refine ⟨?_, ?_, ?_, ?_, q5⟩
          · intro j hj
            have := q1 j
            simp only at hj ⊢
            grind
          · intro v hv
            have := q2 v
            simp only at hv ⊢
            grind
          · intro v hv
            by_cases hvi : v = i
            · exact ⟨w, by simp [upd_apply, hvi], .inl (by simp [upd_apply, (h.wf.rwait w hw).1])⟩
            · simp only [upd_apply, if_neg hvi] at hv
              obtain ⟨j, hj, hj'⟩ := q3' v hv
              refine ⟨j, ?_⟩
              have : j ≠ w := by
                rintro rfl
                rw [hrl.1] at hj
                cases hj
              simp only [upd_apply, if_neg this]
              exact ⟨hj, hj'⟩
          · intro v hv
            have h4 := q4 v hv
            have hne : v ≠ i := by
              rintro rfl
              exact hnL hv
            simp only [upd_apply, if_neg hne]
            exact ⟨by simpa using h4.1, h4.2⟩
        · exact .inl rfl

theorem X0.step {s : St} (h : I0 s none) (q : X0 L s none) (e : Ev) :
    (s.step e).ub = true ∨ X0 (fun w => L w ∨ LateEv s e w) (s.step e) none := by
  have hu := h.ub
  have q0 := q
  cases e with
  | awaitW i c t l =>
    simp only [St.step, hu, Bool.false_eq_true, if_false]
    exact X0.awaitW h q i c t l
  | awaitR i c t l =>
    simp only [St.step, hu, Bool.false_eq_true, if_false]
    rcases X0.awaitR h q i c t l with h | h
    · exact .inl h
    · exact .inr (h.mono fun w => by simp [LateEv])
  | mkR =>
    right
    refine X0.mono (L := L) ?_ fun w => by simp [LateEv]
    obtain ⟨q1, q2, q3, q4, q5⟩ := q
    simp only [St.step, hu, Bool.false_eq_true, if_false]
    refine ⟨q1, q2, fun w hw => ?_, q4, q5⟩
    obtain ⟨j, hj, hj'⟩ := q3 w hw
    refine ⟨j, ?_⟩
    have : j ≠ s.nextR := by
      rintro rfl
      rw [h.wf.rnew _ (Nat.le_refl _)] at hj
      cases hj
    simp only [upd_apply, if_neg this]
    exact ⟨hj, hj'⟩
  | mkW =>
    right
    refine X0.mono (L := L) ?_ fun w => by simp [LateEv]
    obtain ⟨q1, q2, q3, q4, q5⟩ := q
    have h1 := h.wf.wnew s.nextW (Nat.le_refl _)
    have h2 := h.wf.wpost s.nextW
    have h3 := h.tk.endW s.nextW
    simp only [St.step, hu, Bool.false_eq_true, if_false]
    refine ⟨?_, ?_, ?_, ?_, q5⟩
    · intro j hj
      have := q1 j
      simp only at hj ⊢
      grind
    · intro v hv
      have := q2 v
      simp only at hv ⊢
      grind
    · intro v hv
      have := q3 v
      simp only at hv ⊢
      grind
    · intro v hv
      have := q4 v hv
      simp only
      grind
  | run k =>
    right
    refine X0.mono (L := L) ?_ fun w => by simp [LateEv]
    obtain ⟨q1, q2, q3, q4, q5⟩ := q
    simp only [St.step, hu, Bool.false_eq_true, if_false]
    unfold St.run
    split
    · exact q0
    · rename_i i hk
      have hm := nodup_eraseIdx_mem h.wf.ndP hk
      have hI : I0 { s with posted := s.posted.eraseIdx k } (some (.r i)) := by
        refine ⟨h.wf.unpost hk, h.tk.unpost h.wf hk, ?_, ?_, hu⟩
        · have hz := h.z
          have hin : Tok.r i ∈ s.posted := List.mem_of_getElem? hk
          constructor
          all_goals (cases hz; simp only at *; grind)
        · exact h.o.frame (m := []) (by simp) (List.Sublist.refl _) (List.Sublist.refl _) (fun _ => rfl)
      refine X0.resumeR hI ⟨fun j hj => q1 j ?_, q2, q3, q4, q5⟩
      simp only at hj
      grind
    · rename_i i hk
      have hin : Tok.w i ∈ s.posted := List.mem_of_getElem? hk
      have hm := nodup_eraseIdx_mem h.wf.ndP hk
      have hI : I0 { s with posted := s.posted.eraseIdx k } (some (.w i)) := by
        refine ⟨h.wf.unpost hk, h.tk.unpost h.wf hk, ?_, ?_, hu⟩
        · have hz := h.z
          constructor
          all_goals (cases hz; simp only at *; grind)
        · exact h.o.frame (m := []) (by simp) (List.Sublist.refl _) (List.Sublist.refl _) (fun _ => rfl)
      refine X0.resumeW hI ⟨fun j hj => q1 j ?_, q2, q3, q4, q5⟩
      simp only at hj
      grind
  | cancelR i =>
    right
    refine X0.mono (L := L) ?_ fun w => by simp [LateEv]
    obtain ⟨q1, q2, q3, q4, q5⟩ := q
    simp only [St.step, hu, Bool.false_eq_true, if_false]
    unfold St.cancelR
    split
    · refine ⟨fun j hj => q1 j (by simp only at hj; grind), q2, fun w hw => ?_, q4, q5⟩
      obtain ⟨j, hj, hj'⟩ := q3 w hw
      refine ⟨j, ?_⟩
      simp only [upd_apply]
      split <;> simp_all
    · exact q0
  | cancelW i =>
    right
    refine X0.mono (L := L) ?_ fun w => by simp [LateEv]
    obtain ⟨q1, q2, q3, q4, q5⟩ := q
    simp only [St.step, hu, Bool.false_eq_true, if_false]
    unfold St.cancelW
    split
    · refine ⟨?_, ?_, ?_, ?_, q5⟩
      · intro j hj
        have := q1 j
        simp only at hj ⊢
        grind
      · intro v hv
        have := q2 v
        simp only at hv ⊢
        grind
      · intro v hv
        have := q3 v
        simp only at hv ⊢
        grind
      · intro v hv
        have := q4 v hv
        simp only
        grind
    · exact q0
  | intR i =>
    right
    simp only [St.step, hu, Bool.false_eq_true, if_false]
    exact (q.int h.wf (.r i)).mono fun w => by simp [LateEv]
  | intW i =>
    right
    simp only [St.step, hu, Bool.false_eq_true, if_false]
    exact (q.int h.wf (.w i)).mono fun w => by simp [LateEv]
  | dropR i =>
    right
    refine X0.mono (L := L) ?_ fun w => by simp [LateEv]
    obtain ⟨q1, q2, q3, q4, q5⟩ := q
    simp only [St.step, hu, Bool.false_eq_true, if_false]
    unfold St.dropR
    split
    · refine ⟨q1, q2, fun w hw => ?_, q4, q5⟩
      obtain ⟨j, hj, hj'⟩ := q3 w hw
      refine ⟨j, ?_⟩
      simp only [upd_apply]
      split <;> (simp_all; try grind)
    · exact q0
  | dropW i =>
    right
    refine X0.mono (L := L) ?_ fun w => by simp [LateEv]
    obtain ⟨q1, q2, q3, q4, q5⟩ := q
    simp only [St.step, hu, Bool.false_eq_true, if_false]
    unfold St.dropW
    split
    · refine ⟨?_, ?_, ?_, ?_, q5⟩
      · intro j hj
        have := q1 j
        simp only at hj ⊢
        grind
      · intro v hv
        have := q2 v
        simp only at hv ⊢
        grind
      · intro v hv
        have := q3 v
        simp only at hv ⊢
        grind
      · intro v hv
        have := q4 v hv
        simp only
        grind
    · exact q0
  | close =>
    right
    refine X0.mono (L := L) ?_ fun w => by simp [LateEv]
    obtain ⟨q1, q2, q3, q4, q5⟩ := q
    simp only [St.step, hu, Bool.false_eq_true, if_false, St.close]
    refine ⟨?_, ?_, ?_, ?_, q5⟩
    · intro j hj
      have := q1 j
      simp only [List.mem_append, List.mem_map, List.mem_filter] at hj ⊢
      grind
    · intro v hv
      have := q2 v
      simp only at hv ⊢
      grind
    · intro v hv
      have hv' : (s.W v).direct = true := by
        simp only at hv
        split at hv <;> exact hv
      obtain ⟨j, hj⟩ := q3 v hv'
      refine ⟨j, ?_⟩
      simp only
      split <;> exact hj
    · intro v hv
      have := q4 v hv
      simp only
      grind

theorem X0.exec (es : List Ev) : (exec 0 es).ub = true ∨ X0 (LateIn 0 es) (exec 0 es) none := by
  suffices ∀ l : List Ev, (Chan.exec 0 l.reverse).ub = true ∨ X0 (LateIn 0 l.reverse) (Chan.exec 0 l.reverse) none by
    have := this es.reverse
    rw [List.reverse_reverse] at this
    exact this
  intro l
  induction l with
  | nil =>
    right
    constructor
    · intro i hi; simp [Chan.exec, St.steps, St.init] at hi
    · intro i hi; simp [Chan.exec, St.steps, St.init] at hi
    · intro i hi; simp [Chan.exec, St.steps, St.init] at hi
    · rintro w ⟨a, e, b, h, -⟩
      simp at h
    · constructor
      · intro h; simp [Chan.exec, St.steps, St.init] at h
      · rintro ⟨w, a, e, b, h, -⟩
        simp at h
  | cons e l ih =>
    rw [List.reverse_cons]
    rw [show Chan.exec 0 (l.reverse ++ [e]) = (Chan.exec 0 l.reverse).step e from steps_snoc _ _ _]
    rcases ih with ih | ih
    · left; simp [St.step, ih]
    · rcases I0.exec l.reverse with hu | hI
      · left; simp [St.step, hu]
      · rcases X0.step hI ih e with h | h
        · exact .inl h
        · exact .inr (h.mono fun w => lateIn_snoc 0 _ e w)

end Cobalt.Chan
