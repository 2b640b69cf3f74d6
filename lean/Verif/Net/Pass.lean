import Verif.Net.Meet3
import Verif.Net.PassSpec
/-! Helper: networks with channels and networks with buffers. -/
namespace Cobalt.Net
open Chan (upd)

structure PI (N : Prog) (H : Nat → List Res) : Prop where
  res : ∀ p l x, l ++ [x] <+: H p → came N (did N H) p l x
  fin : ∃ b, ∀ p, b ≤ p → H p = []

theorem PI.res_add {N : Prog} {H : Nat → List Res} (m : PI N H) {p : Nat} {x : Res} {D : Nat → List Act}
    (hD : ∀ q, did N H q <+: D q) (hx : came N D p (H p) x) (q : Nat) (l : List Res) (y : Res)
    (hl : l ++ [y] <+: upd H p (H p ++ [x]) q) : came N D q l y := by
  by_cases hq : q = p
  · subst hq
    rw [upd_self] at hl
    rcases List.prefix_concat_iff.1 hl with h | h
    · obtain ⟨h1, h2⟩ := List.append_inj' h rfl
      cases h2
      rw [h1]; exact hx
    · exact came_mono hD (m.res _ _ _ h)
  · rw [upd_ne _ _ hq] at hl
    exact came_mono hD (m.res _ _ _ hl)

theorem Passes.pi {N : Prog} (hN : N.proper) {cap : Nat → Nat} {H : Nat → List Res} (h : Passes N cap H) : PI N H := by
  induction h with
  | start =>
    refine ⟨fun p l x h => ?_, 0, fun _ _ => rfl⟩
    have := h.length_le; simp at this
  | @close H p c h hc m =>
    refine ⟨m.res_add (did_grows N H p _) ?_, fin_add m.fin _ _⟩
    unfold came; rw [hc]
  | @put H p c v h hw ho hr m =>
    refine ⟨m.res_add (did_grows N H p _) ?_, fin_add m.fin _ _⟩
    unfold came; rw [hw]
    exact ⟨fun h => absurd h ho, fun _ => rfl⟩
  | @get H p c v h hr hv m =>
    refine ⟨m.res_add (did_grows N H p _) (came_mono (did_grows N H p _) ?_), fin_add m.fin _ _⟩
    unfold came; rw [hr]
    rw [received_length] at hv
    exact .inl ⟨v, rfl, hv⟩
  | @ended H p c h hr hs he m =>
    refine ⟨m.res_add (did_grows N H p _) (came_mono (did_grows N H p _) ?_), fin_add m.fin _ _⟩
    unfold came; rw [hr]
    rw [received_length] at he
    exact .inr ⟨rfl, hs, he⟩
  | @shut H p c v h hw hs m =>
    refine ⟨m.res_add (did_grows N H p _) ?_, fin_add m.fin _ _⟩
    unfold came; rw [hw]
    exact ⟨fun _ => rfl, fun h => absurd hs h⟩
  | @meet H p q c v h hr hw ho he m =>
    have hwr := hN.write _ _ _ _ hw
    have hqp := Meets.ne hr hw
    have hq : upd H p (H p ++ [Res.val v]) q = H q := upd_ne _ _ hqp
    have e : upd (upd H p (H p ++ [Res.val v])) q (H q ++ [.ok]) =
        upd (upd H p (H p ++ [Res.val v])) q (upd H p (H p ++ [Res.val v]) q ++ [.ok]) := by rw [hq]
    rw [e]
    have g1 := did_grows N H p (.val v)
    have g2 := did_grows N (upd H p (H p ++ [.val v])) q .ok
    have g : ∀ r, did N H r <+: did N (upd (upd H p (H p ++ [Res.val v])) q (upd H p (H p ++ [Res.val v]) q ++ [.ok])) r :=
      fun r => (g1 r).trans (g2 r)
    have cv : came N (did N (upd (upd H p (H p ++ [Res.val v])) q (upd H p (H p ++ [Res.val v]) q ++ [.ok]))) p (H p) (.val v) := by
      unfold came; rw [hr]
      refine .inl ⟨v, rfl, ?_⟩
      rw [received_length] at he
      rw [hwr, did_add, if_pos rfl, hq, hw, sent_snoc]
      have e2 : did N (upd H p (H p ++ [Res.val v])) q = did N H q := by rw [did_add, if_neg hqp]
      rw [e2]
      unfold did
      rw [← he]
      simp [ho]
    have co : came N (did N (upd (upd H p (H p ++ [Res.val v])) q (upd H p (H p ++ [Res.val v]) q ++ [.ok]))) q (H q) .ok := by
      unfold came; rw [hw]
      exact ⟨fun h => absurd h ho, fun _ => rfl⟩
    refine ⟨fun r l x hl => ?_, fin_add (fin_add m.fin _ _) _ _⟩
    by_cases hrq : r = q
    · subst hrq
      rw [upd_self, hq] at hl
      rcases List.prefix_concat_iff.1 hl with h | h
      · obtain ⟨h1, h2⟩ := List.append_inj' h rfl
        cases h2
        rw [h1]; exact co
      · exact came_mono g (m.res _ _ _ h)
    · rw [upd_ne _ _ hrq] at hl
      exact m.res_add g cv r l x hl

theorem comp_step' {N : Prog} (hN : N.proper) {H H' : Nat → List Res} {t : St} (m : PI N H') (g : Grow H H')
    (j : NI N t) (h : Comp H t) : Comp H' t := by
  intro p
  rcases g p with e | ⟨x, e⟩
  · rw [e]; exact h p
  · rcases h p with h1 | h1
    · obtain ⟨r, hr⟩ := h1
      cases r with
      | nil =>
        right
        rw [List.append_nil] at hr
        rw [← hr, e]; exact List.prefix_append _ _
      | cons y ys =>
        left
        have a := m.res p (H p) x (by rw [e]; exact List.prefix_refl _)
        have b := j.came hN (p := p) (l := H p) (x := y) ⟨ys, by rw [← hr]; simp⟩
        have hW : ∀ q, ∃ W, did N H' q <+: W ∧ started N t q <+: W := by
          intro q
          rcases h q with h2 | h2
          · exact ⟨offered N t q, (g.off q).trans (off_mono _ h2), started_offered N t q⟩
          · exact ⟨offH N H q, g.off q, (started_offered N t q).trans (off_mono _ h2)⟩
        have hxy := came_agree (fun q => (Classical.choose_spec (hW q)).1) (fun q => (Classical.choose_spec (hW q)).2) a b
        subst hxy
        rw [e, ← hr]; exact ⟨ys, by simp⟩
    · right; rw [e]; exact h1.trans (List.prefix_append _ _)

theorem Passes.comp {N : Prog} (hN : N.proper) {cap : Nat → Nat} {H : Nat → List Res} (h : Passes N cap H) {t : St}
    (j : NI N t) : Comp H t := by
  induction h with
  | start => exact fun p => .inl List.nil_prefix
  | close h hc ih => exact comp_step' hN (Passes.pi hN (.close h hc)) (grow_add _ _ _) j ih
  | put h hw ho hr ih => exact comp_step' hN (Passes.pi hN (.put h hw ho hr)) (grow_add _ _ _) j ih
  | get h hr hv ih => exact comp_step' hN (Passes.pi hN (.get h hr hv)) (grow_add _ _ _) j ih
  | ended h hr hs he ih => exact comp_step' hN (Passes.pi hN (.ended h hr hs he)) (grow_add _ _ _) j ih
  | shut h hw hs ih => exact comp_step' hN (Passes.pi hN (.shut h hw hs)) (grow_add _ _ _) j ih
  | meet h hr hw ho he ih =>
    exact comp_step' hN (Passes.pi hN (.meet h hr hw ho he)) (grow_meet _ (Meets.ne hr hw) _ _) j ih

/-! ## At rest -/

/-- At rest nobody who reads finds a value or the end. -/
theorem rest_read {N : Prog} (hN : N.proper) {t : St} (j : NI N t) (hr : t.rest N) {p c : Nat}
    (ha : N.act p (t.hist p) = .read c) : Act.close c ∉ started N t (N.wr c) ∧
      (sent c (started N t (N.wr c))).length = nreads c (done (N.act p) (t.hist p)) := by
  rcases rest_pos j hr p with h3 | ⟨c', k, h3, h4⟩ | ⟨c', k, v, h3, h4⟩
  · rw [ha] at h3; cases h3
  · rw [ha] at h4; cases h4
    exact j.restR hN (hr.1 c) h3
  · rw [ha] at h4; cases h4

/-- At rest nobody who writes finds room or the channel closed. -/
theorem rest_write {N : Prog} (hN : N.proper) {t : St} (j : NI N t) (hr : t.rest N) {p c v : Nat}
    (ha : N.act p (t.hist p) = .write c v) : Act.close c ∉ started N t (N.wr c) ∧
      (wrote c (done (N.act p) (t.hist p))).length = nreads c (started N t (N.rd c)) + (t.ch c).cap := by
  rcases rest_pos j hr p with h3 | ⟨c', k, h3, h4⟩ | ⟨c', k, v', h3, h4⟩
  · rw [ha] at h3; cases h3
  · rw [ha] at h4; cases h4
  · rw [ha] at h4; cases h4
    exact j.restW hN (hr.1 c) h3

theorem Passes.least {N : Prog} (hN : N.proper) {cap : Nat → Nat} {H : Nat → List Res} (h : Passes N cap H) {t : St}
    (j : NI N t) (hcap : ∀ c, cap c ≤ (t.ch c).cap) (hr : t.rest N) : ∀ p, H p <+: t.hist p := by
  -- it is enough to look at who would go on and is just there
  have alone : ∀ {H : Nat → List Res} {p : Nat} {x : Res}, (∀ q, H q <+: t.hist q) →
      Comp (upd H p (H p ++ [x])) t → (t.hist p = H p → False) → ∀ r, upd H p (H p ++ [x]) r <+: t.hist r := by
    intro H p x ih hc hno r
    rcases le_or (grow_add H p x) hc ih r with h1 | ⟨h1, h2⟩
    · exact h1
    · by_cases hp : r = p
      · subst hp; exact (hno h1).elim
      · exact absurd (upd_ne _ _ hp) h2
  induction h with
  | start => exact fun p => List.nil_prefix
  | @close H p c h hc ih =>
    refine alone ih (Passes.comp hN (.close h hc) j) fun e => ?_
    rw [← e] at hc
    rcases rest_pos j hr p with h3 | ⟨c, k, h3, h4⟩ | ⟨c, k, v, h3, h4⟩ <;> simp_all
  | @put H p c v h hw ho hro ih =>
    refine alone ih (Passes.comp hN (.put h hw ho hro) j) fun e => ?_
    have hw' := hw
    rw [← e] at hw'
    have h2 := (rest_write hN j hr hw').2
    have h3 := sent_open ho
    have h4 := nreads_mono c ((done_mono (N.act (N.rd c)) (ih (N.rd c))).trans (done_started N t (N.rd c)))
    rw [received_length] at hro
    rw [e] at h2
    have := hcap c
    omega
  | @get H p c v h hrd hv ih =>
    refine alone ih (Passes.comp hN (.get h hrd hv) j) fun e => ?_
    have hrd' := hrd
    rw [← e] at hrd'
    have h2 := (rest_read hN j hr hrd').2
    have h3 := prefix_get (sent_mono c ((done_mono (N.act (N.wr c)) (ih (N.wr c))).trans (done_started N t (N.wr c)))) hv
    rw [received_length] at h3
    rw [e] at h2
    rw [List.getElem?_eq_none (by omega)] at h3
    cases h3
  | @ended H p c h hrd hs he ih =>
    refine alone ih (Passes.comp hN (.ended h hrd hs he) j) fun e => ?_
    rw [← e] at hrd
    exact (rest_read hN j hr hrd).1 (((done_mono _ (ih (N.wr c))).trans (done_started N t (N.wr c))).subset hs)
  | @shut H p c v h hw hs ih =>
    refine alone ih (Passes.comp hN (.shut h hw hs) j) fun e => ?_
    have hwr := hN.write _ _ _ _ hw
    rw [← e] at hw hs
    refine (rest_write hN j hr hw).1 ?_
    rw [hwr]
    exact (done_started N t p).subset hs
  | @meet H p q c v h hrd hw ho he ih =>
    have hqp := Meets.ne hrd hw
    have hp := hN.read _ _ _ hrd
    have hq := hN.write _ _ _ _ hw
    have h7 := sent_open ho
    rw [received_length] at he
    intro r
    rcases le_or (grow_meet H hqp (.val v) .ok) (Passes.comp hN (.meet h hrd hw ho (by rw [received_length]; exact he)) j)
      ih r with h1 | ⟨h1, h2⟩
    · exact h1
    · exfalso
      by_cases e : r = q
      · subst e
        have h5 := nreads_mono c (rest_off hr (ih p) (by rw [hrd]; simp))
        rw [nreads_off hrd] at h5
        have hw' := hw
        rw [← h1] at hw'
        have h6 := (rest_write hN j hr hw').2
        rw [h1, hp] at h6
        unfold did at *
        omega
      · rw [upd_ne _ _ e] at h2
        by_cases e' : r = p
        · subst e'
          have h5 := (sent_mono c (rest_off hr (ih q) (by rw [hw]; simp))).length_le
          have h8 : Act.close c ∉ did N H q := ho
          unfold offH at h5
          rw [hw, sent_snoc] at h5
          simp [h8] at h5
          have hrd' := hrd
          rw [← h1] at hrd'
          have h6 := (rest_read hN j hr hrd').2
          rw [h1, hq] at h6
          unfold did at *
          omega
        · exact h2 (upd_ne _ _ e')

/-! ## Step by step -/

theorem coverP {N : Prog} (hN : N.proper) {cap : Nat → Nat} {s : St} {e : Ev} (i' : NI N (s.step N e))
    (hcap : ∀ c, ((s.step N e).ch c).cap = cap c) {H : Nat → List Res} (h : Passes N cap H) (hle : ∀ q, s.hist q <+: H q)
    (p : Nat) : ∃ H', Passes N cap H' ∧ (∀ q, H q <+: H' q) ∧ (s.step N e).hist p <+: H' p := by
  rcases h.comp hN i' p with h1 | h1
  · obtain ⟨r, hr⟩ := h1
    cases r with
    | nil => exact ⟨H, h, fun q => List.prefix_refl _, by rw [← hr, List.append_nil]; exact List.prefix_refl _⟩
    | cons x xs =>
      have hx : (s.step N e).hist p = H p ++ [x] := by
        have h2 := (hle p).length_le
        have h3 := congrArg List.length hr
        rw [List.length_append, List.length_cons] at h3
        rcases step_moves N s e p with h4 | ⟨-, y, h4⟩
        · rw [h4] at h3; omega
        · rw [h4, List.length_append, List.length_singleton] at h3
          have : xs = [] := List.eq_nil_of_length_eq_zero (by omega)
          rw [← hr, this]
      have hpre : H p ++ [x] <+: (s.step N e).hist p := by rw [hx]; exact List.prefix_refl _
      have hst : ∀ q, started N (s.step N e) q <+: offH N H q := fun q =>
        (step_started N s e q).trans (off_mono _ (hle q))
      have hca := i'.came hN hpre
      rw [hx]
      unfold came at hca
      cases ha : N.act p (H p) with
      | stop => rw [ha] at hca; exact hca.elim
      | close c =>
        rw [ha] at hca
        subst hca
        exact ⟨_, .close h ha, (grow_add _ _ _).le, by rw [upd_self]; exact List.prefix_refl _⟩
      | write c v =>
        rw [ha] at hca
        by_cases hs : Act.close c ∈ done (N.act p) (H p)
        · rw [hca.1 hs]
          exact ⟨_, .shut h ha hs, (grow_add _ _ _).le, by rw [upd_self]; exact List.prefix_refl _⟩
        · have hok := hca.2 hs
          subst hok
          have hq := hN.write _ _ _ _ ha
          have h2 := i'.writeRoom hN hpre ha
          have h3 := nreads_mono c (hst (N.rd c))
          have h4 := sent_open hs
          rw [hcap c] at h2
          unfold offH at h3
          rw [nreads_snoc] at h3
          unfold did at h3
          by_cases hroom : (sent c (done (N.act p) (H p))).length <
              (received (N.act (N.rd c)) c (H (N.rd c))).length + cap c
          · exact ⟨_, .put h ha hs hroom, (grow_add _ _ _).le, by rw [upd_self]; exact List.prefix_refl _⟩
          · have hroom' := hroom
            rw [received_length] at hroom'
            have h5 : N.act (N.rd c) (H (N.rd c)) = .read c := by
              apply Classical.byContradiction
              intro h5
              rw [if_neg h5] at h3
              omega
            rw [if_pos h5] at h3
            have hpn := Meets.ne h5 ha
            by_cases h0 : cap c = 0
            · refine ⟨_, .meet h h5 ha hs ?_, (grow_meet H hpn _ _).le, ?_⟩
              · rw [received_length]; omega
              · rw [upd_self]; exact List.prefix_refl _
            · -- the oldest value is taken first
              have hlt : (received (N.act (N.rd c)) c (H (N.rd c))).length < (sent c (done (N.act p) (H p))).length := by
                rw [received_length]; omega
              have hg : Passes N cap _ := .get (v := (sent c (done (N.act p) (H p)))[(received (N.act (N.rd c)) c (H (N.rd c))).length])
                h h5 (by rw [hq]; exact List.getElem?_eq_getElem hlt)
              have hH := upd_ne H (H (N.rd c) ++ [.val
                ((sent c (done (N.act p) (H p)))[(received (N.act (N.rd c)) c (H (N.rd c))).length])]) hpn
              refine ⟨_, .put (q := p) (c := c) (v := v) hg (by rw [hH]; exact ha) (by rw [hH]; exact hs) ?_,
                fun q => ((grow_add H (N.rd c) _).le q).trans ((grow_add _ p .ok).le q), ?_⟩
              · rw [hH, upd_self, received_length, done_snoc, nreads_snoc, if_pos h5]
                omega
              · rw [upd_self, hH]; exact List.prefix_refl _
      | read c =>
        rw [ha] at hca
        have hp := hN.read _ _ _ ha
        rcases hca with ⟨v, rfl, hv⟩ | ⟨rfl, h2, h2'⟩
        · have h3 := prefix_get (sent_mono c (hst (N.wr c))) hv
          rcases Nat.lt_or_ge (nreads c (done (N.act p) (H p))) (sent c (did N H (N.wr c))).length with hlt | hge
          · have h4 : (sent c (did N H (N.wr c)))[nreads c (done (N.act p) (H p))]? = some v := by
              have h5 : sent c (did N H (N.wr c)) <+: sent c (offH N H (N.wr c)) := sent_mono c (List.prefix_append _ _)
              obtain ⟨t, ht⟩ := h5
              rw [← ht, List.getElem?_append_left hlt] at h3
              exact h3
            refine ⟨_, .get (v := v) h ha (by rw [received_length]; exact h4), (grow_add _ _ _).le, ?_⟩
            rw [upd_self]; exact List.prefix_refl _
          · have hnone : (sent c (did N H (N.wr c)))[nreads c (done (N.act p) (H p))]? = none :=
              List.getElem?_eq_none hge
            have hs : Act.close c ∉ did N H (N.wr c) := by
              intro hs
              unfold offH at h3
              rw [sent_closed c (List.prefix_append _ _) hs, hnone] at h3
              cases h3
            unfold offH at h3
            rw [sent_snoc] at h3
            have h6 : N.act (N.wr c) (H (N.wr c)) = .write c v ∧
                (sent c (did N H (N.wr c))).length = nreads c (done (N.act p) (H p)) := by
              cases hw : N.act (N.wr c) (H (N.wr c)) with
              | write c' w =>
                by_cases hc : c' = c
                · rw [hw] at h3
                  simp only [hc, hs, if_false, if_true] at h3
                  rw [List.getElem?_append_right hge] at h3
                  have h8 : nreads c (done (N.act p) (H p)) - (sent c (did N H (N.wr c))).length = 0 := by
                    apply Classical.byContradiction
                    intro h9
                    rw [List.getElem?_eq_none (by simp; omega)] at h3
                    cases h3
                  rw [h8] at h3
                  simp at h3
                  rw [hc, h3]
                  exact ⟨rfl, by omega⟩
                · rw [hw] at h3; simp [hc, hnone, hs] at h3
              | _ => rw [hw] at h3; simp [hnone] at h3
            obtain ⟨hw, he⟩ := h6
            refine ⟨_, .meet h ha hw hs (by rw [received_length]; exact he), (grow_meet H (Meets.ne ha hw) _ _).le, ?_⟩
            rw [upd_ne _ _ (Meets.ne ha hw).symm, upd_self]; exact List.prefix_refl _
        · have h3 := (hst (N.wr c)).subset h2
          have h9 : (sent c (did N H (N.wr c))).length ≤ nreads c (done (N.act p) (H p)) := by
            have h5 := sent_closed c (hst (N.wr c)) h2
            have h6 : sent c (did N H (N.wr c)) <+: sent c (offH N H (N.wr c)) := sent_mono c (List.prefix_append _ _)
            have h7 := h6.length_le
            rw [h5] at h7
            omega
          unfold offH at h3
          rcases List.mem_append.1 h3 with h4 | h4
          · exact ⟨_, .ended h ha h4 (by rw [received_length]; exact h9), (grow_add _ _ _).le,
              by rw [upd_self]; exact List.prefix_refl _⟩
          · have hc : N.act (N.wr c) (H (N.wr c)) = .close c := (List.mem_singleton.1 h4).symm
            have hne : p ≠ N.wr c := by
              intro e; rw [← e, ha] at hc; cases hc
            have hH := upd_ne H (H (N.wr c) ++ [.ok]) hne
            refine ⟨_, .ended (p := p) (c := c) (.close h hc) (by rw [hH]; exact ha) ?_ ?_,
              fun q => ((grow_add H (N.wr c) .ok).le q).trans ((grow_add _ p .broken).le q), ?_⟩
            · rw [upd_self, done_snoc, hc]; simp
            · rw [upd_self, hH, done_snoc, hc, received_length, sent_snoc]
              simpa [did] using h9
            · rw [upd_self, hH]; exact List.prefix_refl _
  · exact ⟨H, h, fun q => List.prefix_refl _, h1⟩

theorem coversP {N : Prog} (hN : N.proper) {cap : Nat → Nat} {s : St} {e : Ev} (i' : NI N (s.step N e))
    (hcap : ∀ c, ((s.step N e).ch c).cap = cap c) {H : Nat → List Res} (h : Passes N cap H) (hle : ∀ q, s.hist q <+: H q)
    (b : Nat) : ∃ H', Passes N cap H' ∧ (∀ q, H q <+: H' q) ∧ ∀ p, p < b → (s.step N e).hist p <+: H' p := by
  induction b with
  | zero => exact ⟨H, h, fun q => List.prefix_refl _, fun p hp => absurd hp (by omega)⟩
  | succ b ih =>
    obtain ⟨H1, h1, h2, h3⟩ := ih
    obtain ⟨H2, h4, h5, h6⟩ := coverP hN i' hcap h1 (fun q => (hle q).trans (h2 q)) b
    refine ⟨H2, h4, fun q => (h2 q).trans (h5 q), fun p hp => ?_⟩
    rcases Nat.lt_or_ge p b with h7 | h7
    · exact (h3 p h7).trans (h5 p)
    · have : p = b := by omega
      subst this; exact h6

theorem mostP {N : Prog} (hN : N.proper) (cap : Nat → Nat) (es : List Ev) :
    ∃ H, Passes N cap H ∧ ∀ p, (run N cap es).hist p <+: H p := by
  induction es using snoc_ind with
  | h0 => exact ⟨_, .start, fun p => List.nil_prefix⟩
  | h1 es e ih =>
    obtain ⟨H, h1, h2⟩ := ih
    have i' := NI.run hN cap (es ++ [e])
    have hc := run_cap N cap (es ++ [e])
    have hu := untouched N cap (es ++ [e])
    rw [run_snoc] at i' hc hu ⊢
    obtain ⟨H', h3, h4, h5⟩ := coversP hN i' hc h1 h2 (bound (es ++ [e]))
    refine ⟨H', h3, fun p => ?_⟩
    rcases Nat.lt_or_ge p (bound (es ++ [e])) with h6 | h6
    · exact h5 p h6
    · rw [(hu p (bound_spec _ p h6)).1]; exact List.nil_prefix

end Cobalt.Net
