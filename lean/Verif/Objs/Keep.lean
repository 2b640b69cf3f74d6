import Verif.Objs.Inv
/-! # The invariants are kept -/
namespace Cobalt.Objs

open Chan (Status Tok Obs upd RRes WRes)

/-- `l` lists who has what. -/
def Has (l : List (Nat × Nat)) (ph : Nat → Phase) : Prop :=
  (l.map Prod.fst).Nodup ∧ ∀ u o, (u, o) ∈ l ↔ ph u = .has o

theorem Has.add {l : List (Nat × Nat)} {ph : Nat → Phase} (h : Has l ph) {u o : Nat}
    (hu : ∀ o, ph u ≠ .has o) : Has ((u, o) :: l) (upd ph u (.has o)) := by
  obtain ⟨h1, h2⟩ := h
  refine ⟨?_, fun v p => ?_⟩
  · rw [List.map_cons, List.nodup_cons]
    refine ⟨fun hc => ?_, h1⟩
    obtain ⟨⟨v, p⟩, hv, rfl⟩ := List.mem_map.1 hc
    exact hu p ((h2 _ _).1 hv)
  · rw [List.mem_cons, h2, Chan.upd_apply]
    have := hu p
    split <;> grind

theorem Has.same {l : List (Nat × Nat)} {ph : Nat → Phase} (h : Has l ph) {u : Nat} {p : Phase}
    (hu : ∀ o, ph u ≠ .has o) (hp : ∀ o, p ≠ .has o) : Has l (upd ph u p) := by
  obtain ⟨h1, h2⟩ := h
  refine ⟨h1, fun v o => ?_⟩
  rw [h2, Chan.upd_apply]
  have := hu o
  have := hp o
  split <;> grind

theorem Has.del {l : List (Nat × Nat)} {ph : Nat → Phase} (h : Has l ph) {u o : Nat} {p : Phase}
    (hu : ph u = .has o) (hp : ∀ o, p ≠ .has o) : Has (l.erase (u, o)) (upd ph u p) := by
  obtain ⟨h1, h2⟩ := h
  have hn : l.Nodup := List.Pairwise.of_map _ (fun a b h e => h (by rw [e])) h1
  refine ⟨h1.sublist (List.erase_sublist.map _), fun v q => ?_⟩
  rw [hn.mem_erase_iff, h2, Chan.upd_apply]
  have := hp q
  split <;> grind

theorem Has.perm {l : List (Nat × Nat)} {ph : Nat → Phase} (h : Has l ph) {u o : Nat}
    (hu : ph u = .has o) : (o :: (l.erase (u, o)).map Prod.snd).Perm (l.map Prod.snd) := by
  have := (List.perm_cons_erase ((h.2 u o).2 hu)).symm.map Prod.snd
  simpa using this

theorem PI.move {s s' : St} {e : Ev} (h : PI s) (m : Move s e s') : s'.ch.ub = true ∨ PI s' := by
  obtain ⟨l, hl1, hl2, hp⟩ := h.own
  have hl : Has l s.ph := ⟨hl1, hl2⟩
  cases m with
  | idle => exact .inr h
  | make u hu hm =>
    right
    have hw := h.wait
    have hU := h.waitU
    have hE := h.waitE
    have hb := h.noback
    have hl' := hl.add (o := s.made) (u := u) (by simp [hu])
    refine ⟨h.ok, hm, ?_, ?_, ?_, ?_, ⟨_, hl'.1, hl'.2, ?_⟩⟩
    all_goals dsimp only
    · grind
    · grind
    · grind
    · intro j hj
      obtain ⟨v, hv⟩ := hE j hj
      exact ⟨v, by grind⟩
    · rw [List.map_cons, List.range_succ]
      refine List.perm_middle.trans ?_
      refine (List.Perm.cons _ hp).trans ?_
      exact (List.perm_append_singleton _ _).symm
  | takeNow u conn b bs hu hb =>
    right
    have hw := h.wait
    have hU := h.waitU
    have hE := h.waitE
    have hbk := h.noback
    have hn := h.ok.new s.ch.nextR (Nat.le_refl _)
    have hl' := hl.add (o := s.obj b) (u := u) (by simp [hu])
    refine ⟨h.ok.take_ready hb, h.made, ?_, ?_, ?_, ?_, ⟨_, hl'.1, hl'.2, ?_⟩⟩
    all_goals dsimp only
    · grind
    · grind
    · grind
    · intro j hj
      obtain ⟨v, hv⟩ := hE j (by grind)
      exact ⟨v, by grind⟩
    · rw [List.map_cons]
      refine List.perm_middle.trans ?_
      rw [hb] at hp
      simpa using hp
  | takeWait u conn hu hb =>
    right
    have hw := h.wait
    have hU := h.waitU
    have hE := h.waitE
    have hbk := h.noback
    have hn := h.ok.new s.ch.nextR (Nat.le_refl _)
    have hq : ∀ v j, s.ph v = .wait j → j ≠ s.ch.nextR := by
      intro v j hv hj; have := hw v j hv; rw [hj, hn] at this; cases this
    have hl' := hl.same (p := .wait s.ch.nextR) (u := u) (by simp [hu]) (by simp)
    refine ⟨h.ok.take_wait conn, h.made, ?_, ?_, ?_, ?_, ⟨_, hl'.1, hl'.2, hp⟩⟩
    all_goals dsimp only
    all_goals clear hl' hl hp hl1 hl2 h
    · grind
    · grind
    · grind
    · intro j hj
      by_cases hj' : j = s.ch.nextR
      · exact ⟨u, by grind⟩
      · obtain ⟨v, hv⟩ := hE j (by grind)
        exact ⟨v, by grind⟩
  | bring u conn o hu =>
    right
    have hst : ∀ j, ((match s.ch.rq with
                  | [] => s.ch.R
                  | j :: _ => upd s.ch.R j { s.ch.R j with waiting := false }) j).status =
        (s.ch.R j).status := by
      intro j
      cases s.ch.rq with
      | nil => rfl
      | cons i rest => dsimp only; rw [Chan.upd_apply]; split <;> simp_all
    have hw := h.wait
    have hU := h.waitU
    have hE := h.waitE
    have hbk := h.noback
    have hl' := hl.del (p := .out) hu (by simp)
    refine ⟨h.ok.bring, h.made, ?_, ?_, ?_, ?_, ⟨_, hl'.1, hl'.2, ?_⟩⟩
    all_goals dsimp only
    · grind
    · intro v j hv
      exact (hst j).trans (hw v j (by grind))
    · grind
    · intro j hj
      obtain ⟨v, hv⟩ := hE j ((hst j).symm.trans hj)
      exact ⟨v, by grind⟩
    · have hm : s.ch.buf.map (upd s.obj s.ch.nextW o) = s.ch.buf.map s.obj := by
        refine List.map_congr_left fun w hw => ?_
        have := h.ok.old w hw
        rw [Chan.upd_apply, if_neg (by omega)]
      rw [List.map_append, hm]
      simp only [List.map_cons, List.map_nil, Chan.upd_apply, if_true, List.append_assoc,
        List.cons_append, List.nil_append]
      exact ((hl.perm hu).append_left _).trans hp
  | abort k j u hk hc hu =>
    right
    have hw := h.wait
    have hU := h.waitU
    have hE := h.waitE
    have hbk := h.noback
    have hl' := hl.same (p := .out) (u := u) (by simp [hu]) (by simp)
    refine ⟨h.ok.run_read hk _ (fun _ h => h), h.made, ?_, ?_, ?_, ?_, ⟨_, hl'.1, hl'.2, hp⟩⟩
    all_goals dsimp only
    · grind
    · grind
    · grind
    · intro i hi
      obtain ⟨v, hv⟩ := hE i (by grind)
      exact ⟨v, by grind⟩
  | got k j u b bs hk hc hu hb =>
    right
    have hw := h.wait
    have hU := h.waitU
    have hE := h.waitE
    have hbk := h.noback
    have hl' := hl.add (o := s.obj b) (u := u) (by simp [hu])
    refine ⟨h.ok.run_read hk _ (by grind), h.made, ?_, ?_, ?_, ?_, ⟨_, hl'.1, hl'.2, ?_⟩⟩
    all_goals dsimp only
    · grind
    · grind
    · grind
    · intro i hi
      obtain ⟨v, hv⟩ := hE i (by grind)
      exact ⟨v, by grind⟩
    · rw [List.map_cons]
      refine List.perm_middle.trans ?_
      rw [hb] at hp
      simpa using hp
  | bad k j hk hc hb => exact .inl rfl
  | cancel u j hu hs =>
    right
    have hw := h.wait
    have hU := h.waitU
    have hE := h.waitE
    refine ⟨h.ok.cancel j (hw u j hu), h.made, h.noback, ?_, hU, ?_, ⟨l, hl1, hl2, hp⟩⟩
    all_goals dsimp only
    · grind
    · intro i hi
      exact hE i (by grind)

/-! Once the behaviour is undefined it stays so. -/

theorem chan_ub {c : Chan.St} (h : c.ub = true) (es : List Chan.Ev) : c.steps es = c := by
  unfold Chan.St.steps
  induction es with
  | nil => rfl
  | cons e es ih =>
    have : c.step e = c := by unfold Chan.St.step; rw [if_pos h]
    rw [List.foldl_cons, this, ih]

theorem step_ub {s : St} (h : s.ch.ub = true) (e : Ev) : (s.step e).ch.ub = true := by
  change (s.ch.steps (s.events e)).ub = true
  rw [chan_ub h, h]

theorem steps_snoc (s : St) (es : List Ev) (e : Ev) : s.steps (es ++ [e]) = (s.steps es).step e := by
  simp [St.steps]

theorem steps_ub {s : St} (h : s.ch.ub = true) (es : List Ev) : (s.steps es).ch.ub = true := by
  unfold St.steps
  induction es generalizing s with
  | nil => exact h
  | cons e es ih => exact ih (step_ub h e)

theorem PI.steps {s : St} (h : PI s) (es : List Ev) : (s.steps es).ch.ub = true ∨ PI (s.steps es) := by
  induction es generalizing s with
  | nil => exact .inr h
  | cons e es ih =>
    rcases h.move (Objs.move h e) with hu | hp
    · exact .inl (steps_ub hu es)
    · exact ih hp

theorem exec_PI {n : Nat} {es : List Ev} (h : (exec n es).ch.ub = false) : PI (exec n es) := by
  rcases (PI.init n).steps es with hu | hp
  · rw [exec, hu] at h; cases h
  · exact hp

theorem nodup_snd {l : List (Nat × Nat)} (h : (l.map Prod.snd).Nodup) {u v o : Nat}
    (hu : (u, o) ∈ l) (hv : (v, o) ∈ l) : (u, o) = (v, o) := by
  induction l with
  | nil => cases hu
  | cons a l ih =>
    rw [List.map_cons, List.nodup_cons] at h
    rcases List.mem_cons.1 hu with e1 | e1 <;> rcases List.mem_cons.1 hv with e2 | e2
    · rw [e1, e2]
    · exact absurd (List.mem_map.2 ⟨_, e2, by rw [← e1]⟩) h.1
    · exact absurd (List.mem_map.2 ⟨_, e1, by rw [← e2]⟩) h.1
    · exact ih h.2 e1 e2

theorem PI.Own {s : St} (h : PI s) : Own s := by
  obtain ⟨l, hl1, hl2, hp⟩ := h.own
  have hn : (s.ch.buf.map s.obj ++ l.map Prod.snd).Nodup := hp.nodup_iff.2 List.nodup_range
  obtain ⟨n1, n2, n3⟩ := List.nodup_append.1 hn
  refine ⟨fun u v o hu hv => ?_, fun u o hu w hw e => ?_, n1, fun o => ?_⟩
  · have e1 := (hl2 u o).2 hu
    have e2 := (hl2 v o).2 hv
    have : (u, o) = (v, o) := nodup_snd n2 e1 e2
    exact congrArg Prod.fst this
  · exact n3 (s.obj w) (List.mem_map_of_mem hw) o (List.mem_map.2 ⟨_, (hl2 u o).2 hu, rfl⟩) e
  · have := hp.mem_iff (a := o)
    rw [List.mem_range, List.mem_append] at this
    rw [← this]
    constructor
    · rintro (h1 | h1)
      · obtain ⟨w, hw, rfl⟩ := List.mem_map.1 h1
        exact .inr ⟨w, hw, rfl⟩
      · obtain ⟨⟨u, p⟩, hu, rfl⟩ := List.mem_map.1 h1
        exact .inl ⟨u, (hl2 _ _).1 hu⟩
    · rintro (⟨u, hu⟩ | ⟨w, hw, rfl⟩)
      · exact .inr (List.mem_map.2 ⟨_, (hl2 u o).2 hu, rfl⟩)
      · exact .inl (List.mem_map_of_mem hw)

/-! Who has been woken. -/

/-- What `woken` counts. -/
def wk (R : Nat → Chan.ROp) : Tok → Bool
  | .r i => !(R i).cancelled
  | .w _ => false

theorem woken_eq (c : Chan.St) : woken c = c.posted.countP (wk c.R) := by
  unfold woken
  congr 1

theorem wk_upd (R : Nat → Chan.ROp) (j : Nat) (r : Chan.ROp) (h : r.cancelled = (R j).cancelled) :
    wk (upd R j r) = wk R := by
  funext t
  cases t with
  | w _ => rfl
  | r i => simp only [wk, Chan.upd_apply]; split <;> simp_all

theorem countP_erase (p : Tok → Bool) {l : List Tok} {k : Nat} {t : Tok} (hk : l[k]? = some t) :
    l.countP p = (l.eraseIdx k).countP p + if p t then 1 else 0 := by
  induction l generalizing k with
  | nil => simp at hk
  | cons a l ih =>
    cases k with
    | zero => simp at hk; subst hk; simp [List.countP_cons]
    | succ k => simp at hk; simp [List.countP_cons, ih hk]; omega

/-- Nobody is woken without an object being there. -/
theorem polite_keep {s s' : St} {e : Ev} (h : PI s) (m : Move s e s') (hp : Polite s e)
    (hi : woken s.ch ≤ s.ch.buf.length) :
    s'.ch.ub = false ∧ woken s'.ch ≤ s'.ch.buf.length := by
  have hub := h.ok.ub
  have hn := h.ok.new s.ch.nextR (Nat.le_refl _)
  rw [woken_eq] at hi ⊢
  cases m with
  | idle => exact ⟨hub, hi⟩
  | make u hu hm => exact ⟨hub, hi⟩
  | takeNow u conn b bs hu hb =>
    refine ⟨hub, ?_⟩
    dsimp only
    rw [wk_upd _ _ _ (by rw [hn])]
    rcases hp with hp | hp
    · rw [hb] at hp; cases hp
    · rw [woken_eq, hb] at hp
      simp at hp; omega
  | takeWait u conn hu hb =>
    refine ⟨hub, ?_⟩
    dsimp only
    rw [wk_upd _ _ _ (by rw [hn])]
    exact hi
  | bring u conn o hu =>
    refine ⟨hub, ?_⟩
    dsimp only
    cases hrq : s.ch.rq with
    | nil => simp; omega
    | cons j rest =>
      dsimp only
      rw [wk_upd _ _ _ (by rfl), List.countP_append]
      have : (((j :: rest).head?.map Tok.r).toList).countP (wk s.ch.R) ≤ 1 :=
        Nat.le_trans List.countP_le_length (by simp)
      rw [List.length_append, List.length_singleton]
      omega
  | abort k j u hk hc hu =>
    refine ⟨hub, ?_⟩
    dsimp only
    rw [wk_upd _ _ _ (by rfl)]
    have := countP_erase (wk s.ch.R) hk
    omega
  | got k j u b bs hk hc hu hb =>
    refine ⟨hub, ?_⟩
    dsimp only
    rw [wk_upd _ _ _ (by rfl)]
    have := countP_erase (wk s.ch.R) hk
    rw [hb] at hi
    simp [wk, hc] at this hi
    omega
  | bad k j hk hc hb =>
    have := countP_erase (wk s.ch.R) hk
    rw [hb] at hi
    simp [wk, hc] at this hi
    exact absurd hc (by simpa [wk] using hi _ (List.mem_of_getElem? hk))
  | cancel u j hu hs =>
    refine ⟨hub, ?_⟩
    dsimp only
    refine Nat.le_trans ?_ hi
    have h1 : ∀ l : List Tok, l.countP (wk (upd s.ch.R j
        { s.ch.R j with cancelled := true, slot := false, waiting := false })) ≤
        l.countP (wk s.ch.R) := by
      intro l
      refine List.countP_mono_left fun t _ ht => ?_
      cases t with
      | w _ => exact ht
      | r i =>
        simp only [wk, Chan.upd_apply] at ht ⊢
        split at ht <;> simp_all
    split
    · rw [List.countP_append]
      have h2 := h1 s.ch.posted
      have : List.countP (wk (upd s.ch.R j
        { s.ch.R j with cancelled := true, slot := false, waiting := false })) [Tok.r j] = 0 := by
        simp [wk, Chan.upd_apply]
      dsimp only at h2 this
      omega
    · exact h1 _

/-- While somebody waits every object in the channel is meant for one that has been woken. -/
theorem spares_keep {s s' : St} {e : Ev} (h : PI s) (m : Move s e s') (hp : Spares s e)
    (hi : s.ch.rq ≠ [] → s.ch.buf.length ≤ woken s.ch) :
    s'.ch.rq ≠ [] → s'.ch.buf.length ≤ woken s'.ch := by
  have hn := h.ok.new s.ch.nextR (Nat.le_refl _)
  rw [woken_eq] at hi ⊢
  cases m with
  | idle => exact hi
  | make u hu hm => exact hi
  | takeNow u conn b bs hu hb =>
    dsimp only
    rw [wk_upd _ _ _ (by rw [hn])]
    rw [hb] at hi
    intro hq
    have := hi hq
    simp at this; omega
  | takeWait u conn hu hb =>
    dsimp only
    intro _
    rw [hb]; simp
  | bring u conn o hu =>
    dsimp only
    intro hq
    cases hrq : s.ch.rq with
    | nil => rw [hrq] at hq; exact absurd rfl hq
    | cons j rest =>
      dsimp only
      rw [wk_upd _ _ _ (by rfl), List.countP_append]
      have := hi (by simp [hrq])
      have hc := (h.ok.link j (by simp [hrq])).2.2
      simp [wk, hc]; omega
  | abort k j u hk hc hu =>
    dsimp only
    rw [wk_upd _ _ _ (by rfl)]
    have := countP_erase (wk s.ch.R) hk
    simp [wk, hc] at this
    intro hq
    have := hi hq
    omega
  | got k j u b bs hk hc hu hb =>
    dsimp only
    rw [wk_upd _ _ _ (by rfl)]
    have := countP_erase (wk s.ch.R) hk
    rw [hb] at hi
    simp [wk, hc] at this
    intro hq
    have := hi hq
    simp at this
    omega
  | bad k j hk hc hb =>
    dsimp only
    intro _
    rw [hb]; simp
  | cancel u j hu hs =>
    dsimp only
    intro hq
    have hq' : s.ch.rq ≠ [] := fun hc => hq (by rw [hc]; rfl)
    have h1 := hi hq'
    have hj : Tok.r j ∉ s.ch.posted := hp j hu
    have h2 : s.ch.posted.countP (wk (upd s.ch.R j
        { s.ch.R j with cancelled := true, slot := false, waiting := false })) =
        s.ch.posted.countP (wk s.ch.R) := by
      refine List.countP_congr fun t ht => ?_
      cases t with
      | w _ => rfl
      | r i =>
        have : i ≠ j := by rintro rfl; exact hj ht
        simp only [wk, Chan.upd_apply, if_neg this]
    dsimp only at h2
    split
    · rw [List.countP_append]; omega
    · omega

end Cobalt.Objs
