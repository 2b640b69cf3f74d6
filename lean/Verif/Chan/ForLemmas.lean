import Verif.Chan.ForModel
import Verif.Chan.Fifo4
import Verif.Chan.Persist
/-! Helper: the loop invariant of `BOOST_COBALT_FOR`. -/
namespace Cobalt.Chan

theorem nextR_resumeR (s : St) (i : Nat) : (s.resumeR i).nextR = s.nextR := by
  have wW : ∀ t : St, t.wakeWriter.nextR = t.nextR := by
    intro t; unfold St.wakeWriter; split
    · rfl
    · dsimp only; split
      · split <;> rfl
      · rfl
  unfold St.resumeR; split
  · rfl
  · split
    · rfl
    · split
      · rfl
      all_goals (rw [wW]; rfl)

theorem nextR_resumeW (s : St) (i : Nat) : (s.resumeW i).nextR = s.nextR := by
  have wR : ∀ t : St, t.wakeReader.nextR = t.nextR := by
    intro t; unfold St.wakeReader; split
    · rfl
    · dsimp only; split
      · split <;> rfl
      · rfl
  unfold St.resumeW; split
  · rfl
  · split
    · rfl
    · split <;> rw [wR] <;> rfl

theorem nextR_int (s : St) (t : Tok) : (s.int t).nextR = s.nextR := by
  cases t
  · simp only [St.int, intR_eq]; split
    · rfl
    · split <;> rfl
  · simp only [St.int, intW_eq]; split
    · rfl
    · split <;> rfl

theorem nextR_hits (ts : List Tok) (s : St) : (ts.foldl St.int s).nextR = s.nextR := by
  induction ts generalizing s with
  | nil => rfl
  | cons t ts ih => rw [List.foldl_cons, ih, nextR_int]

theorem nextR_step (s : St) (e : Ev) (he : e ≠ .mkR) : (s.step e).nextR = s.nextR := by
  unfold St.step
  split
  · rfl
  · cases e with
    | mkR => exact absurd rfl he
    | mkW => rfl
    | awaitR i c t l =>
      dsimp only; rw [awaitR_eq]; split
      · rfl
      · dsimp only; split
        · rw [nextR_resumeR]
        · split
          · rfl
          · split
            · rw [nextR_resumeW, nextR_hits]; rfl
            · rfl
    | awaitW i c t l =>
      dsimp only; rw [awaitW_eq]; split
      · rfl
      · dsimp only; split
        · rw [nextR_resumeW]
        · split
          · rfl
          · split
            · rw [nextR_resumeR, nextR_hits]; rfl
            · rfl
    | run k =>
      dsimp only; unfold St.run; split
      · rfl
      · rw [nextR_resumeR]
      · rw [nextR_resumeW]
    | cancelR i => dsimp only; unfold St.cancelR; split <;> rfl
    | cancelW i => dsimp only; unfold St.cancelW; split <;> rfl
    | intR i => exact nextR_int s (.r i)
    | intW i => exact nextR_int s (.w i)
    | dropR i => dsimp only; unfold St.dropR; split <;> rfl
    | dropW i => dsimp only; unfold St.dropW; split <;> rfl
    | close => rfl

theorem resultOf_none {log : List Obs} {i : Nat} : resultOf log i = none ↔ i ∉ endedR log := by
  rw [mem_endedR]
  simp only [resultOf, List.findSome?_eq_none_iff]
  constructor
  · rintro h ⟨r, hr⟩
    simpa using h _ hr
  · intro h o ho
    cases o with
    | doneR j r =>
      simp only [ite_eq_right_iff]
      rintro rfl; exact absurd ⟨r, ho⟩ h
    | _ => rfl

/-- If the read `i` is the only one that can end in the new part of the log, the
new part delivers just its value. -/
theorem delivered_single (m : List Obs) (i : Nat) (h1 : ∀ j ∈ endedR m, j = i) (h2 : (endedR m).Nodup) :
    delivered m = (match resultOf m i with | some (.value w) => [w] | _ => []) := by
  induction m with
  | nil => rfl
  | cons o m ih =>
    have e1 : endedR (o :: m) = endedR [o] ++ endedR m := endedR_append [o] m
    have e2 : delivered (o :: m) = delivered [o] ++ delivered m := delivered_append [o] m
    rw [e1] at h1 h2
    have h2' := (List.nodup_append.1 h2).2.1
    have ih := ih (fun j hj => h1 j (List.mem_append_right _ hj)) h2'
    rw [e2, ih]
    cases o with
    | doneR j r =>
      have hj : j = i := h1 j (by simp [endedR])
      subst hj
      have hn : j ∉ endedR m := by
        intro hm
        exact (List.nodup_append.1 h2).2.2 j (by simp [endedR]) j hm rfl
      rw [resultOf_none.2 hn]
      simp only [resultOf, List.findSome?_cons, if_true]
      cases r <;> rfl
    | startR j => rfl
    | startW j => rfl
    | doneW j r => rfl

theorem resultOf_append (a b : List Obs) (i : Nat) (h : i ∉ endedR a) :
    resultOf (a ++ b) i = resultOf b i := by
  have := resultOf_none.2 h
  simp only [resultOf] at this ⊢
  rw [List.findSome?_append, this]; rfl

/-- The loop invariant. -/
structure LI (l : LoopSt) : Prop where
  h : WF l.s none
  t : TK l.s none
  j : J l.s none
  seen : l.seen = delivered l.s.log
  all : ∀ i, i < l.s.nextR → l.phase = .waiting i ∨ i ∈ endedR l.s.log
  cur : ∀ i, l.phase = .waiting i → i < l.s.nextR ∧ i ∉ endedR l.s.log

theorem LI.init (cap : Nat) : LI { s := St.init cap } :=
  ⟨WF.init cap, TK.init cap, J.init cap, rfl, fun i h => by simp [St.init] at h, fun i h => by cases h⟩

theorem inv_step {s : St} (h : WF s none) (t : TK s none) (j : J s none) (e : Ev)
    (hp : Prompt s [e]) (ho : Spsc s [e]) (hn : s.noStale ∨ e.isDrop = true) :
    WF (s.step e) none ∧ TK (s.step e) none ∧ J (s.step e) none := by
  have := spsc_inv [e] s h t j ⟨hn, trivial⟩ hp ho
  exact this

/-- After a step that is not a read by others, before the loop has noticed. -/
theorem LI.advance {l : LoopSt} {s' : St} (i : Nat)
    (h : WF s' none) (t : TK s' none) (j : J s' none) (m : List Obs) (hm : s'.log = l.s.log ++ m)
    (hseen : l.seen = delivered l.s.log) (hall : ∀ k, k < s'.nextR → k = i ∨ k ∈ endedR l.s.log)
    (hi : i < s'.nextR) (hcur : i ∉ endedR l.s.log) :
    LI (LoopSt.advance { s := s', phase := .waiting i, seen := l.seen }) := by
  have hnd : (endedR l.s.log ++ endedR m).Nodup := by rw [← endedR_append, ← hm]; exact t.ndER
  have h1 : ∀ k ∈ endedR m, k = i := by
    intro k hk
    have hk' : k ∈ endedR s'.log := by rw [hm, endedR_append]; exact List.mem_append_right _ hk
    obtain ⟨r, hr⟩ := (mem_endedR _ _).1 hk'
    have hst := t.endR k r hr
    have hlt : k < s'.nextR := by
      rcases Nat.lt_or_ge k s'.nextR with h1 | h1
      · exact h1
      · rw [h.rnew k h1] at hst; simp at hst
    rcases hall k hlt with h2 | h2
    · exact h2
    · exact absurd rfl ((List.nodup_append.1 hnd).2.2 k h2 k hk)
  have hd := delivered_single m i h1 (List.nodup_append.1 hnd).2.1
  have hres : resultOf s'.log i = resultOf m i := by rw [hm]; exact resultOf_append _ _ _ hcur
  have hdel : delivered s'.log = l.seen ++ (match resultOf s'.log i with | some (.value w) => [w] | _ => []) := by
    rw [hres, ← hd, hseen, hm, delivered_append]
  have drop := inv_step h t j (.dropR i) ⟨trivial, trivial⟩ ⟨trivial, trivial⟩ (Or.inr rfl)
  have dlog : (s'.step (.dropR i)).log = s'.log := by
    unfold St.step; split
    · rfl
    · dsimp only; unfold St.dropR; split <;> rfl
  have dn := nextR_step s' (.dropR i) (by simp)
  unfold LoopSt.advance
  dsimp only
  have hmono : ∀ k ∈ endedR l.s.log, k ∈ endedR s'.log := by
    intro k hk; rw [hm, endedR_append]; exact List.mem_append_left _ hk
  have hend : resultOf s'.log i ≠ none → ∀ k, k < s'.nextR → k ∈ endedR s'.log := by
    intro hne k hk
    rcases hall k hk with h2 | h2
    · subst h2
      by_contra hc; exact hne (resultOf_none.2 hc)
    · exact hmono k h2
  cases hr : resultOf s'.log i with
  | none =>
    rw [hr] at hdel
    refine ⟨h, t, j, by simpa using hdel.symm, ?_, ?_⟩
    · intro k hk
      rcases hall k hk with h2 | h2
      · left; rw [h2]
      · right; exact hmono k h2
    · intro k hk
      simp only [Phase.waiting.injEq] at hk
      subst hk
      exact ⟨hi, resultOf_none.1 hr⟩
  | some r =>
    rw [hr] at hdel
    cases r with
    | value w =>
      refine ⟨drop.1, drop.2.1, drop.2.2, ?_, ?_, ?_⟩
      · dsimp only; rw [dlog]; exact hdel.symm
      · intro k hk
        right; dsimp only at hk ⊢; rw [dlog]; exact hend (by simp [hr]) k (by rw [← dn]; exact hk)
      · intro k hk; cases hk
    | aborted =>
      refine ⟨drop.1, drop.2.1, drop.2.2, ?_, ?_, ?_⟩
      · dsimp only; rw [dlog]; simpa using hdel.symm
      · intro k hk
        right; dsimp only at hk ⊢; rw [dlog]; exact hend (by simp [hr]) k (by rw [← dn]; exact hk)
      · intro k hk; cases hk
    | brokenPipe =>
      refine ⟨drop.1, drop.2.1, drop.2.2, ?_, ?_, ?_⟩
      · dsimp only; rw [dlog]; simpa using hdel.symm
      · intro k hk
        right; dsimp only at hk ⊢; rw [dlog]; exact hend (by simp [hr]) k (by rw [← dn]; exact hk)
      · intro k hk; cases hk

theorem LI.other {l : LoopSt} (li : LI l) (e : Ev) (hr : e.notReading = true)
    (hp : Prompt l.s [e]) (ho : Spsc l.s [e]) (hn : l.s.noStale ∨ e.isDrop = true) :
    LI (l.step (.other e)) := by
  obtain ⟨h, t, j⟩ := inv_step li.h li.t li.j e hp ho hn
  obtain ⟨m, hm⟩ := (Rel.step li.h e).grow
  have hx := nextR_step l.s e (by rintro rfl; simp [Ev.notReading] at hr)
  by_cases hw : ∃ i, l.phase = .waiting i
  · obtain ⟨i, hi⟩ := hw
    have := LI.advance (l := l) i h t j m hm li.seen
      (by intro k hk; rw [hx] at hk; rcases li.all k hk with h1 | h1
          · left; rw [hi] at h1; simpa using h1.symm
          · right; exact h1)
      (by rw [hx]; exact (li.cur i hi).1) (li.cur i hi).2
    simp only [LoopSt.step]
    rw [hi]
    exact this
  · have hnw : ∀ i, l.phase ≠ .waiting i := fun i hi => hw ⟨i, hi⟩
    have had : LoopSt.advance { l with s := l.s.step e } = { l with s := l.s.step e } := by
      unfold LoopSt.advance
      split
      · rename_i i hi; exact absurd hi (hnw i)
      · rfl
    simp only [LoopSt.step]
    rw [had]
    -- nothing can end: every read has ended
    have hm0 : delivered m = [] := by
      have hnd : (endedR l.s.log ++ endedR m).Nodup := by rw [← endedR_append, ← hm]; exact t.ndER
      have h1 : endedR m = [] := by
        rw [List.eq_nil_iff_forall_not_mem]
        intro k hk
        have hk' : k ∈ endedR (l.s.step e).log := by rw [hm, endedR_append]; exact List.mem_append_right _ hk
        obtain ⟨r, hr⟩ := (mem_endedR _ _).1 hk'
        have hst := t.endR k r hr
        have hlt : k < (l.s.step e).nextR := by
          rcases Nat.lt_or_ge k (l.s.step e).nextR with h1 | h1
          · exact h1
          · rw [h.rnew k h1] at hst; simp at hst
        rw [hx] at hlt
        rcases li.all k hlt with h2 | h2
        · exact hnw k h2
        · exact absurd rfl ((List.nodup_append.1 hnd).2.2 k h2 k hk)
      have := delivered_single m 0 (by simp [h1]) (by simp [h1])
      rw [this, resultOf_none.2 (by simp [h1])]
    refine ⟨h, t, j, ?_, ?_, ?_⟩
    · dsimp only; rw [hm, delivered_append, hm0, li.seen]; simp
    · intro k hk
      dsimp only at hk ⊢
      rw [hx] at hk
      rcases li.all k hk with h2 | h2
      · exact Or.inl h2
      · right; rw [hm, endedR_append]; exact List.mem_append_left _ h2
    · intro k hk; exact absurd hk (hnw k)

theorem LI.turn {l : LoopSt} (li : LI l) (conn : Bool) (hn : l.s.noStale) :
    LI (l.step (.turn conn)) := by
  simp only [LoopSt.step, LoopSt.turn]
  split
  · rename_i hph
    split
    · refine ⟨li.h, li.t, li.j, li.seen, ?_, ?_⟩
      · intro k hk
        rcases li.all k hk with h | h
        · rw [hph] at h; cases h
        · exact Or.inr h
      · intro k hk; cases hk
    · have hu := li.j.ub
      obtain ⟨h1, t1, j1⟩ := inv_step li.h li.t li.j .mkR ⟨trivial, trivial⟩ ⟨trivial, trivial⟩ (Or.inl hn)
      have hended : ∀ k, k < l.s.nextR → k ∈ endedR l.s.log := by
        intro k hk
        rcases li.all k hk with h | h
        · rw [hph] at h; cases h
        · exact h
      have hmk : (l.s.step .mkR) = { l.s with R := upd l.s.R l.s.nextR { status := .fresh }, nextR := l.s.nextR + 1 } := by
        simp [St.step, hu]
      have hone : ∀ k, ((l.s.step .mkR).R k).status ≠ .susp := by
        intro k
        rw [hmk]
        dsimp only
        rw [upd_apply]
        split
        · simp
        · intro hs
          rcases Nat.lt_or_ge k l.s.nextR with hk | hk
          · obtain ⟨r, hr⟩ := (mem_endedR _ _).1 (hended k hk)
            have := li.t.endR k r hr
            rw [hs] at this; simp at this
          · rw [li.h.rnew k hk] at hs; cases hs
      have hst : (l.s.step .mkR).noStale := by
        rw [hmk]
        refine ⟨fun i hi => ?_, hn.2⟩
        have := hn.1 i hi
        dsimp only
        rw [upd_apply]
        split
        · subst_vars
          rw [li.h.rnew _ (Nat.le_refl _)] at this; cases this
        · exact this
      obtain ⟨h2, t2, j2⟩ := inv_step h1 t1 j1 (.awaitR l.s.nextR conn false []) ⟨trivial, trivial⟩
        ⟨hone, trivial⟩ (Or.inl hst)
      obtain ⟨m, hm⟩ := (Rel.step h1 (.awaitR l.s.nextR conn false [])).grow
      have hx := nextR_step (l.s.step .mkR) (.awaitR l.s.nextR conn false []) (by simp)
      have hx1 : (l.s.step .mkR).nextR = l.s.nextR + 1 := by rw [hmk]
      have hl1 : (l.s.step .mkR).log = l.s.log := by rw [hmk]
      refine LI.advance (l := l) l.s.nextR h2 t2 j2 m (by rw [hm, hl1]) li.seen ?_ ?_ ?_
      · intro k hk
        rw [hx, hx1] at hk
        by_cases e : k = l.s.nextR
        · exact Or.inl e
        · exact Or.inr (hended k (by omega))
      · rw [hx, hx1]; omega
      · intro hc
        obtain ⟨r, hr⟩ := (mem_endedR _ _).1 hc
        have := li.t.endR _ r hr
        rw [li.h.rnew _ (Nat.le_refl _)] at this; simp at this
  · exact li

theorem LI.loop (es : List LEv) : ∀ l, LI l → LProg l es → LI (es.foldl LoopSt.step l) := by
  induction es with
  | nil => intro l li _; exact li
  | cons e es ih =>
    intro l li hp
    refine ih _ ?_ hp.2
    cases e with
    | turn c => exact li.turn c hp.1
    | other e => exact li.other e hp.1.1 hp.1.2.2.1 hp.1.2.2.2 hp.1.2.1

theorem J.split {s : St} (j : J s none) :
    ∃ hand : List Nat, hand.length ≤ 1 ∧ (∀ w, w ∈ hand ↔ s.inHand w) ∧
      delivered s.log ++ s.buf ++ hand = s.taken := by
  by_cases hd : ∃ i d, (s.R i).status = .susp ∧ (s.R i).direct = some d
  · obtain ⟨i, d, h1, h2⟩ := hd
    refine ⟨[d], by simp, ?_, j.fifo1 i d (Or.inl h1) h2⟩
    intro w
    simp only [List.mem_singleton]
    constructor
    · rintro rfl; exact ⟨i, h1, h2⟩
    · rintro ⟨k, h3, h4⟩
      have := j.oneR i k (Or.inl h1) (Or.inl h3)
      subst this
      rw [h2] at h4
      simpa using h4.symm
  · simp only [not_exists, not_and] at hd
    refine ⟨[], by simp, ?_, ?_⟩
    · intro w
      simp only [List.not_mem_nil, false_iff]
      rintro ⟨k, h3, h4⟩
      exact hd k w h3 h4
    · rw [List.append_nil]
      apply j.fifo0
      intro k hk
      simp only [St.actR, reduceCtorEq, or_false] at hk
      cases hk' : (s.R k).direct with
      | none => rfl
      | some d => exact absurd hk' (hd k d hk)

end Cobalt.Chan
