import Verif.Rpc.Lemmas
/-! Helper: everything comes to an end. -/
namespace Cobalt.Rpc

/-! ## Nothing is left behind -/

theorem can_start {P : Prog} {s : St} (i : Nat) : s.can P (.start i) = true ↔ i < P.works ∧ s.joined = false ∧ s.w i = .new := by
  simp [St.can, and_assoc]

theorem can_resume {P : Prog} {s : St} (i : Nat) :
    s.can P (.resume i) = true ↔ i < P.works ∧ (s.w i = .sent ∨ s.w i = .stop ∨ ∃ o, s.w i = .got o) := by
  simp only [St.can, Bool.and_eq_true, decide_eq_true_eq]
  cases s.w i <;> simp

theorem can_join {P : Prog} {s : St} : s.can P .join = true ↔ s.joined = false ∧ ∀ i, i < P.works → s.w i ≠ .new := by
  simp [St.can, St.allNot]

theorem can_close {P : Prog} {s : St} :
    s.can P .close = true ↔ s.joined = true ∧ s.closed = false ∧ ∀ i, i < P.works → (s.w i).dead = true := by
  simp [St.can, St.allDead, and_assoc]

theorem can_worker {P : Prog} {s : St} (x : Nat) :
    s.can P (.worker x) = true ↔ x < P.workers ∧ (s.k x = .idle ∨ ∃ i, s.k x = .busy i) := by
  simp only [St.can, Bool.and_eq_true, decide_eq_true_eq]
  cases s.k x <;> simp

theorem rest_over {P : Prog} {s : St} (h : Inv P s) (hw : P.workers ≠ 0) (hr : s.rest P) : s.over P := by
  have no : ∀ e, ¬ s.can P e = true := fun e => by rw [hr e]; simp
  have here : ∀ i, s.w i ≠ .new → i < P.works := fun i hi =>
    Classical.byContradiction fun hn => hi (h.here i (by omega))
  have hnr : ∀ i, s.w i ≠ .sent ∧ s.w i ≠ .stop ∧ ∀ o, s.w i ≠ .got o := fun i =>
    ⟨fun e => no (.resume i) ((can_resume i).2 ⟨here i (by rw [e]; simp), .inl e⟩),
      fun e => no (.resume i) ((can_resume i).2 ⟨here i (by rw [e]; simp), .inr (.inl e)⟩),
      fun o e => no (.resume i) ((can_resume i).2 ⟨here i (by rw [e]; simp), .inr (.inr ⟨o, e⟩)⟩)⟩
  have hj : s.joined = true := by
    cases hj : s.joined with
    | true => rfl
    | false =>
      refine (no .join (can_join.2 ⟨hj, fun i hi e => ?_⟩)).elim
      exact no (.start i) ((can_start i).2 ⟨hi, hj, e⟩)
  have hk : ∀ x, x < P.workers → s.k x ≠ .idle ∧ ∀ i, s.k x ≠ .busy i := fun x hx =>
    ⟨fun e => no (.worker x) ((can_worker x).2 ⟨hx, .inl e⟩), fun i e => no (.worker x) ((can_worker x).2 ⟨hx, .inr ⟨i, e⟩⟩)⟩
  have hna : ∀ x i, s.k x ≠ .answering i := fun x i e => by
    rcases h.ans x i e with h1 | h1
    · exact (hnr i).1 h1
    · exact (hnr i).2.1 h1
  have hdead : ∀ i, i < P.works → (s.w i).dead = true := by
    intro i hi
    cases e : s.w i with
    | new => exact absurd e (h.jn hj i hi)
    | sent => exact absurd e (hnr i).1
    | stop => exact absurd e (hnr i).2.1
    | got o => exact absurd e ((hnr i).2.2 o)
    | done => rfl
    | failed _ => rfl
    | aborted => rfl
    | receiving =>
      obtain ⟨x, hx, hx'⟩ := h.has i (by rw [e]; trivial)
      cases ek : s.k x with
      | busy j => exact absurd ek ((hk x hx).2 j)
      | answering j => exact absurd ek (hna x j)
      | idle => rw [ek] at hx'; cases hx'
      | waiting => rw [ek] at hx'; cases hx'
      | ended => rw [ek] at hx'; cases hx'
    | sending =>
      exfalso
      have hs := (h.snd i).2 e
      have ht : s.takers = [] := by
        rcases h.excl with h1 | h1
        · rw [h1] at hs; cases hs
        · exact h1
      have hx : 0 < P.workers := by omega
      cases ek : s.k 0 with
      | idle => exact (hk 0 hx).1 ek
      | busy j => exact (hk 0 hx).2 j ek
      | answering j => exact hna 0 j ek
      | waiting => have := (h.tk 0).2 ek; rw [ht] at this; cases this
      | ended => have := h.cl (h.end' 0 ek) i hi; rw [e] at this; cases this
  have hc : s.closed = true := by
    cases hc : s.closed with
    | true => rfl
    | false => exact (no .close (can_close.2 ⟨hj, hc, hdead⟩)).elim
  refine ⟨hdead, fun x hx => ?_⟩
  cases ek : s.k x with
  | idle => exact absurd ek (hk x hx).1
  | busy j => exact absurd ek ((hk x hx).2 j)
  | answering j => exact absurd ek (hna x j)
  | waiting => have := (h.tk x).2 ek; rw [h.clT hc] at this; cases this
  | ended => rfl

/-! ## The measure -/

def wOf (L : Nat) : W → Nat
  | .new => 8 * L + 6
  | .sending => 8 * L + 5
  | .sent => 8 * L + 2
  | .receiving => 8 * L + 1
  | .stop | .got _ => 8 * L
  | _ => 0

def kOf : K → Nat
  | .ended => 0
  | .waiting => 1
  | .idle => 2
  | .answering _ => 3
  | .busy _ => 4

def St.left (P : Prog) (s : St) (i : Nat) : Nat := wOf ((P.calls i).length - (s.res i).length) (s.w i)

def sumTo (f : Nat → Nat) (b : Nat) : Nat := ((List.range b).map f).sum

def St.work (P : Prog) (s : St) : Nat :=
  sumTo (s.left P) P.works + sumTo (fun x => kOf (s.k x)) P.workers + (if s.joined then 0 else 1) +
    (if s.closed then 0 else P.workers + 1)

theorem sumTo_succ (f : Nat → Nat) (b : Nat) : sumTo f (b + 1) = sumTo f b + f b := by
  simp [sumTo, List.range_succ]

theorem sumTo_le {f g : Nat → Nat} {b : Nat} (h : ∀ i, i < b → g i ≤ f i) : sumTo g b ≤ sumTo f b := by
  induction b with
  | zero => simp [sumTo]
  | succ b ih =>
    rw [sumTo_succ, sumTo_succ]
    have := ih fun i hi => h i (by omega)
    have := h b (by omega)
    omega

theorem sumTo_drop {f g : Nat → Nat} {b i d : Nat} (hi : i < b) (hd : g i + d ≤ f i) (h : ∀ j, j < b → j ≠ i → g j ≤ f j) :
    sumTo g b + d ≤ sumTo f b := by
  induction b with
  | zero => omega
  | succ b ih =>
    rw [sumTo_succ, sumTo_succ]
    by_cases e : i = b
    · subst e
      have := sumTo_le (f := f) (g := g) (b := i) fun j hj => h j (by omega) (by omega)
      omega
    · have := ih (by omega) fun j hj hne => h j (by omega) hne
      have := h b (by omega) (fun hb => e hb.symm)
      omega

theorem sumTo_rise {f g : Nat → Nat} {b i d : Nat} (hd : g i ≤ f i + d) (h : ∀ j, j < b → j ≠ i → g j ≤ f j) :
    sumTo g b ≤ sumTo f b + d := by
  induction b with
  | zero => simp [sumTo]
  | succ b ih =>
    rw [sumTo_succ, sumTo_succ]
    by_cases e : i = b
    · subst e
      have := sumTo_le (f := f) (g := g) (b := i) fun j hj => h j (by omega) (by omega)
      omega
    · have := ih fun j hj hne => h j (by omega) hne
      have := h b (by omega) (fun hb => e hb.symm)
      omega

theorem sumTo_rise_all {f g : Nat → Nat} {b : Nat} (h : ∀ j, j < b → g j ≤ f j + 1) : sumTo g b ≤ sumTo f b + b := by
  induction b with
  | zero => simp [sumTo]
  | succ b ih =>
    rw [sumTo_succ, sumTo_succ]
    have := ih fun j hj => h j (by omega)
    have := h b (by omega)
    omega

theorem wOf_cancel (L : Nat) (a : W) : wOf L a.cancel ≤ wOf L a := by
  cases a <;> simp [W.cancel, wOf]

theorem wOf_dead {L : Nat} {a : W} (h : a.dead = true) : wOf L a = 0 := by
  cases a <;> simp_all [W.dead, wOf]

theorem kOf_die (k : Nat → K) (i x : Nat) : kOf (if k x = .answering i then .idle else k x) ≤ kOf (k x) := by
  split
  · rename_i h; rw [h]; simp [kOf]
  · exact Nat.le_refl _

theorem die_lt {P : Prog} {s : St} {i : Nat} (hi : i < P.works) {how : W} (hd : how.dead = true) (hp : 0 < s.left P i) :
    (s.die i how).work P < s.work P := by
  have h1 : sumTo ((s.die i how).left P) P.works + 1 ≤ sumTo (s.left P) P.works := by
    refine sumTo_drop hi ?_ fun j _ hj => ?_
    · simp only [St.left, St.die, upd_self]
      rw [wOf_dead hd]
      simp only [St.left] at hp
      omega
    · simp only [St.left, St.die, upd_ne _ _ hj]; exact Nat.le_refl _
  have h2 : sumTo (fun x => kOf ((s.die i how).k x)) P.workers ≤ sumTo (fun x => kOf (s.k x)) P.workers :=
    sumTo_le fun x _ => kOf_die s.k i x
  have e1 : (s.die i how).joined = s.joined := rfl
  have e2 : (s.die i how).closed = s.closed := rfl
  unfold St.work
  rw [e1, e2]
  omega

theorem cancelAll_le {P : Prog} {s : St} (i : Nat) : (s.cancelAll i).work P ≤ s.work P := by
  have h1 : sumTo ((s.cancelAll i).left P) P.works ≤ sumTo (s.left P) P.works := by
    refine sumTo_le fun j _ => ?_
    simp only [St.left, St.cancelAll]
    split
    · exact Nat.le_refl _
    · exact wOf_cancel _ _
  unfold St.work
  have e1 : (s.cancelAll i).joined = s.joined := rfl
  have e2 : (s.cancelAll i).closed = s.closed := rfl
  have e3 : (s.cancelAll i).k = s.k := rfl
  rw [e1, e2, e3]
  omega

/-- A call is made: less is left than before, by what the coroutine had left. -/
theorem request_lt {P : Prog} {s : St} (h : Inv P s) {i : Nat} (hi : i < P.works) {res : Nat → List Nat}
    (hr : ∀ j, j ≠ i → res j = s.res j) (hd : 8 * ((P.calls i).length - (res i).length) + 6 ≤ s.left P i) :
    (St.request P { s with res := res } i).work P < s.work P := by
  have key : ∀ t : St, t.joined = s.joined → t.closed = s.closed → t.res = res → (∀ j, j ≠ i → t.w j = s.w j) →
      ∀ d, t.left P i + d + 1 ≤ s.left P i →
        sumTo (fun x => kOf (t.k x)) P.workers ≤ sumTo (fun x => kOf (s.k x)) P.workers + d → t.work P < s.work P := by
    intro t h1 h2 h3 h4 d h5 h6
    have : sumTo (t.left P) P.works + (d + 1) ≤ sumTo (s.left P) P.works := by
      refine sumTo_drop hi (by omega) fun j _ hj => ?_
      simp only [St.left, h3, hr j hj, h4 j hj]
      exact Nat.le_refl _
    unfold St.work
    rw [h1, h2]
    omega
  unfold St.request
  split
  · refine key _ rfl rfl rfl (fun j hj => by simp [St.die, upd_ne _ _ hj]) 0 ?_ ?_
    · simp [St.left, St.die, wOf] at hd ⊢; omega
    · exact sumTo_le fun x _ => kOf_die s.k i x
  · split
    · refine key _ rfl rfl rfl (fun j hj => by simp [St.die, upd_ne _ _ hj]) 0 ?_ ?_
      · simp [St.left, St.die, wOf] at hd ⊢; omega
      · exact sumTo_le fun x _ => kOf_die s.k i x
    · split
      · rename_i x xs hx
        refine key _ rfl rfl rfl (fun j hj => by simp [upd_ne _ _ hj]) 3 ?_ ?_
        · simp [St.left, wOf] at hd ⊢; omega
        · have hk : s.k x = .waiting := (h.tk x).1 (by rw [show s.takers = x :: xs from hx]; simp)
          refine sumTo_rise (i := x) ?_ fun j _ hj => ?_
          · simp [hk, kOf]
          · simp [upd_ne _ _ hj]
      · refine key _ rfl rfl rfl (fun j hj => by simp [upd_ne _ _ hj]) 0 ?_ (Nat.le_refl _)
        simp [St.left, wOf] at hd ⊢; omega

theorem Inv.pos {P : Prog} {s : St} (h : Inv P s) {i : Nat} (hw : (s.w i).calls ∨ ∃ o, s.w i = .got o) : 8 ≤ s.left P i := by
  have hl : (s.res i).length < (P.calls i).length := by
    rcases hw with hw | ⟨o, hw⟩
    · exact h.mid i hw
    · have := h.got i o hw
      rcases Nat.lt_or_ge (s.res i).length (P.calls i).length with h | h
      · exact h
      · rw [List.getElem?_eq_none h] at this; cases this
  unfold St.left
  rcases hw with hw | ⟨o, hw⟩
  · cases e : s.w i <;> rw [e] at hw <;> simp [W.calls] at hw <;> simp [wOf] <;> omega
  · rw [hw]; simp [wOf]; omega

/-- A step of one coroutine and perhaps one worker. -/
theorem pair_lt {P : Prog} {s t : St} {i x : Nat} (hi : i < P.works) (h1 : t.joined = s.joined) (h2 : t.closed = s.closed)
    (h3 : t.res = s.res) (h4 : ∀ j, j ≠ i → t.w j = s.w j) (h5 : ∀ y, y ≠ x → kOf (t.k y) ≤ kOf (s.k y))
    (d c : Nat) (h6 : t.left P i + d ≤ s.left P i) (h7 : kOf (t.k x) ≤ kOf (s.k x) + c) (h8 : c < d) :
    t.work P < s.work P := by
  have a : sumTo (t.left P) P.works + d ≤ sumTo (s.left P) P.works := by
    refine sumTo_drop hi h6 fun j _ hj => ?_
    simp only [St.left, h3, h4 j hj]
    exact Nat.le_refl _
  have b : sumTo (fun x => kOf (t.k x)) P.workers ≤ sumTo (fun x => kOf (s.k x)) P.workers + c :=
    sumTo_rise (i := x) h7 fun y _ hy => h5 y hy
  unfold St.work
  rw [h1, h2]
  omega

/-- A step of one worker. -/
theorem one_lt {P : Prog} {s t : St} {x : Nat} (hx : x < P.workers) (h1 : t.joined = s.joined) (h2 : t.closed = s.closed)
    (h3 : ∀ i, t.left P i ≤ s.left P i) (h5 : ∀ y, y ≠ x → kOf (t.k y) ≤ kOf (s.k y)) (h7 : kOf (t.k x) < kOf (s.k x)) :
    t.work P < s.work P := by
  have a : sumTo (t.left P) P.works ≤ sumTo (s.left P) P.works := sumTo_le fun j _ => h3 j
  have b : sumTo (fun x => kOf (t.k x)) P.workers + 1 ≤ sumTo (fun x => kOf (s.k x)) P.workers :=
    sumTo_drop hx h7 fun y _ hy => h5 y hy
  unfold St.work
  rw [h1, h2]
  omega

theorem receive_lt {P : Prog} {s : St} (h : Inv P s) {i : Nat} (hi : i < P.works) (hw : s.w i = .sent) :
    (s.receive P i).work P < s.work P := by
  have hp := h.pos (i := i) (.inl (by rw [hw]; trivial))
  have hl : s.left P i = 8 * ((P.calls i).length - (s.res i).length) + 2 := by simp [St.left, hw, wOf]
  unfold St.receive
  split
  · exact die_lt hi rfl (by omega)
  · split
    · split
      · refine pair_lt (x := 0) hi rfl rfl rfl (fun j hj => upd_ne _ _ hj) (fun y _ => kOf_die s.k i y) 1 0 ?_ (kOf_die s.k i 0)
          (by omega)
        rw [hl]; simp [St.left, wOf]
      · rename_i ho
        have := h.mid i (by rw [hw]; trivial)
        rw [St.call, List.getElem?_eq_getElem this] at ho
        cases ho
    · refine pair_lt (x := 0) hi rfl rfl rfl (fun j hj => upd_ne _ _ hj) (fun y _ => Nat.le_refl _) 1 0 ?_ (Nat.le_refl _)
        (by omega)
      rw [hl]; simp [St.left, wOf]

theorem reply_lt {P : Prog} {s : St} {x i : Nat} (hx : x < P.workers) (hk : s.k x = .busy i)
    (hu : (s.reply P x i).ub = false) : (s.reply P x i).work P < s.work P := by
  unfold St.reply at hu ⊢
  split
  · rename_i hd; rw [if_pos hd] at hu; cases hu
  · split
    · rename_i o hw ho
      refine one_lt hx rfl rfl (fun j => ?_) (fun y hy => by simp [upd_ne _ _ hy]) (by simp [hk, kOf])
      simp only [St.left, upd_app]
      split
      · rename_i e; subst e; rw [hw]; simp [wOf]
      · exact Nat.le_refl _
    · exact one_lt hx rfl rfl (fun j => Nat.le_refl _) (fun y hy => by simp [upd_ne _ _ hy]) (by simp [hk, kOf])

theorem take_lt {P : Prog} {s : St} (h : Inv P s) {x : Nat} (hx : x < P.workers) (hk : s.k x = .idle) :
    (s.take x).work P < s.work P := by
  unfold St.take
  split
  · exact one_lt hx rfl rfl (fun j => Nat.le_refl _) (fun y hy => by simp [upd_ne _ _ hy]) (by simp [hk, kOf])
  · split
    · rename_i i is hs
      have hw : s.w i = .sending := (h.snd i).1 (by rw [hs]; simp)
      have hi : i < P.works := Classical.byContradiction fun hn => by rw [h.here i (by omega)] at hw; cases hw
      refine pair_lt (x := x) hi rfl rfl rfl (fun j hj => upd_ne _ _ hj) (fun y hy => by simp [upd_ne _ _ hy]) 3 2 ?_ ?_ (by omega)
      · simp [St.left, hw, wOf]
      · simp [hk, kOf]
    · exact one_lt hx rfl rfl (fun j => Nat.le_refl _) (fun y hy => by simp [upd_ne _ _ hy]) (by simp [hk, kOf])

/-- Whatever happens, less is left to do. -/
theorem step_lt {P : Prog} {s : St} (h : Inv P s) (hu : s.ub = false) {e : Ev} (hc : s.can P e = true)
    (hv : (s.step P e).ub = false) : (s.step P e).work P < s.work P := by
  have he : s.step P e = s.act P e := by simp [St.step, hu, hc]
  rw [he] at hv ⊢
  cases e with
  | start i =>
    obtain ⟨hi, -, hw⟩ := (can_start i).1 hc
    exact request_lt h hi (res := s.res) (fun _ _ => rfl) (by simp [St.left, hw, wOf])
  | resume i =>
    obtain ⟨hi, hw⟩ := (can_resume i).1 hc
    simp only [St.act, St.resume]
    rcases hw with hw | hw | ⟨o, hw⟩
    · rw [hw]; exact receive_lt h hi hw
    · rw [hw]
      have := h.pos (i := i) (.inl (by rw [hw]; trivial))
      exact die_lt hi rfl (by omega)
    · rw [hw]
      have hp := h.pos (i := i) (.inr ⟨o, hw⟩)
      dsimp only
      cases o with
      | ok r =>
        refine request_lt h hi (fun j hj => upd_ne _ _ hj) ?_
        rw [upd_self, List.length_append, List.length_singleton]
        simp [St.left, hw, wOf] at hp ⊢
        omega
      | fail e =>
        have hl := die_lt (s := s) hi (how := .failed e) rfl (by omega)
        simp only [St.answer]
        split
        · exact Nat.lt_of_le_of_lt (cancelAll_le i) hl
        · exact hl
  | join =>
    obtain ⟨hj, -⟩ := can_join.1 hc
    have key : ∀ t : St, t.joined = false → St.work P { t with joined := true } < t.work P := by
      intro t ht
      unfold St.work
      rw [ht]
      have : St.left P { t with joined := true } = t.left P := rfl
      rw [this]
      dsimp only
      simp only [if_true, Bool.false_eq_true, if_false]
      omega
    simp only [St.act, St.join]
    split
    · exact Nat.lt_of_lt_of_le (key _ hj) (cancelAll_le _)
    · exact key s hj
  | close =>
    obtain ⟨hj, hcl, -⟩ := can_close.1 hc
    simp only [St.act]
    have a : sumTo (fun x => kOf (s.close.k x)) P.workers ≤ sumTo (fun x => kOf (s.k x)) P.workers + P.workers := by
      refine sumTo_rise_all fun x _ => ?_
      simp only [St.close]
      split
      · rename_i e; rw [e]; simp [kOf]
      · omega
    have e1 : s.close.left P = s.left P := rfl
    have e2 : s.close.joined = s.joined := rfl
    have e3 : s.close.closed = true := rfl
    unfold St.work
    rw [e1, e2, e3, hcl]
    simp only [if_true, Bool.false_eq_true, if_false]
    omega
  | worker x =>
    obtain ⟨hx, hk⟩ := (can_worker x).1 hc
    simp only [St.act, St.worker] at hv ⊢
    rcases hk with hk | ⟨i, hk⟩
    · rw [hk]; exact take_lt h hx hk
    · rw [hk] at hv ⊢; exact reply_lt hx hk hv

theorem not_rest {P : Prog} {s : St} (h : ¬ s.rest P) : ∃ e, s.can P e = true := by
  apply Classical.byContradiction
  intro hn
  apply h
  intro e
  cases he : s.can P e with
  | false => rfl
  | true => exact (hn ⟨e, he⟩).elim

theorem allCan_le {P : Prog} {s : St} (h : Inv P s) {es : List Ev} (ha : s.allCan P es) : es.length ≤ s.work P + 1 := by
  induction es generalizing s with
  | nil => simp
  | cons e es ih =>
    obtain ⟨hu, hc, ha⟩ := ha
    cases es with
    | nil => simp
    | cons e' es =>
      have := ih (h.step e) ha
      have := step_lt h hu hc ha.1
      simp only [List.length_cons] at *
      omega

end Cobalt.Rpc
