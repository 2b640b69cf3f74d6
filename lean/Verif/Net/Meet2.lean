import Verif.Net.Meet
/-! Helper: networks with channels and networks in which readers and writers meet. -/
namespace Cobalt.Net
open Chan (upd)

/-- What the coroutines have done and do next. -/
def offH (N : Prog) (H : Nat → List Res) (p : Nat) : List Act := did N H p ++ [N.act p (H p)]

theorem off_mono (f : List Res → Act) {a b : List Res} (h : a <+: b) : done f a ++ [f a] <+: done f b ++ [f b] := by
  obtain ⟨t, rfl⟩ := h
  cases t with
  | nil => rw [List.append_nil]; exact List.prefix_refl _
  | cons x xs =>
    rw [← done_snoc f a x]
    refine List.IsPrefix.trans ?_ (List.prefix_append _ _)
    exact done_mono _ ⟨xs, by simp⟩

/-- At most one thing more has come of what each coroutine did. -/
def Grow (H H' : Nat → List Res) : Prop := ∀ r, H' r = H r ∨ ∃ x, H' r = H r ++ [x]

theorem grow_add (H : Nat → List Res) (p : Nat) (x : Res) : Grow H (upd H p (H p ++ [x])) := by
  intro r
  by_cases h : r = p
  · subst h; exact .inr ⟨x, upd_self _ _ _⟩
  · exact .inl (upd_ne _ _ h)

theorem grow_meet (H : Nat → List Res) {p q : Nat} (hqp : q ≠ p) (x y : Res) :
    Grow H (upd (upd H p (H p ++ [x])) q (H q ++ [y])) := by
  intro r
  by_cases h : r = q
  · subst h; exact .inr ⟨y, upd_self _ _ _⟩
  · rw [upd_ne _ _ h]; exact grow_add H p x r

theorem Grow.le {H H' : Nat → List Res} (g : Grow H H') (r : Nat) : H r <+: H' r := by
  rcases g r with h | ⟨x, h⟩ <;> rw [h]
  · exact List.prefix_refl _
  · exact List.prefix_append _ _

theorem Grow.off {N : Prog} {H H' : Nat → List Res} (g : Grow H H') (r : Nat) : did N H' r <+: offH N H r := by
  unfold offH did
  rcases g r with h | ⟨x, h⟩ <;> rw [h]
  · exact List.prefix_append _ _
  · rw [done_snoc]; exact List.prefix_refl _

def Comp (H : Nat → List Res) (s : St) : Prop := ∀ p, H p <+: s.hist p ∨ s.hist p <+: H p

theorem comp_step {N : Prog} (hN : N.proper) {H H' : Nat → List Res} {t : St} (m : MI N H') (g : Grow H H')
    (j : NI N t) (h : Comp H t) : Comp H' t := by
  intro p
  rcases g p with e | ⟨x, e⟩
  · rw [e]; exact h p
  · rcases h p with h1 | h1
    · obtain ⟨r, hr⟩ := h1
      cases r with
      | nil =>
        right
        rw [List.append_nil] at hr
        rw [← hr, e]; exact List.prefix_append _ _
      | cons y ys =>
        left
        have a := m.res p (H p) x (by rw [e]; exact List.prefix_refl _)
        have b := j.came hN (p := p) (l := H p) (x := y) ⟨ys, by rw [← hr]; simp⟩
        have hW : ∀ q, ∃ W, did N H' q <+: W ∧ started N t q <+: W := by
          intro q
          rcases h q with h2 | h2
          · exact ⟨offered N t q, (g.off q).trans (off_mono _ h2), started_offered N t q⟩
          · exact ⟨offH N H q, g.off q, (started_offered N t q).trans (off_mono _ h2)⟩
        have hxy := came_agree (fun q => (Classical.choose_spec (hW q)).1) (fun q => (Classical.choose_spec (hW q)).2) a b
        subst hxy
        rw [e, ← hr]; exact ⟨ys, by simp⟩
    · right; rw [e]; exact h1.trans (List.prefix_append _ _)

theorem Meets.ne {N : Prog} {H : Nat → List Res} {p q c v : Nat} (hr : N.act p (H p) = .read c)
    (hw : N.act q (H q) = .write c v) : q ≠ p := by
  intro e; subst e; rw [hr] at hw; cases hw

/-- Nobody does different things with channels. -/
theorem Meets.comp {N : Prog} (hN : N.proper) {H : Nat → List Res} (h : Meets N H) {t : St} (j : NI N t) : Comp H t := by
  induction h with
  | start => exact fun p => .inl List.nil_prefix
  | close h hc ih => exact comp_step hN (Meets.mi hN (.close h hc)) (grow_add _ _ _) j ih
  | ended h hr hs ih => exact comp_step hN (Meets.mi hN (.ended h hr hs)) (grow_add _ _ _) j ih
  | shut h hw hs ih => exact comp_step hN (Meets.mi hN (.shut h hw hs)) (grow_add _ _ _) j ih
  | meet h hr hw ho ih =>
    exact comp_step hN (Meets.mi hN (.meet h hr hw ho)) (grow_meet _ (Meets.ne hr hw) _ _) j ih

/-! ## At rest -/

theorem rest_off {N : Prog} {t : St} (hr : t.rest N) {H : Nat → List Res} {q : Nat} (h : H q <+: t.hist q)
    (ha : N.act q (H q) ≠ .stop) : offH N H q <+: started N t q := by
  obtain ⟨r, hr'⟩ := h
  cases r with
  | nil =>
    rw [List.append_nil] at hr'
    have hp : t.pos q ≠ .idle := by
      intro hp
      have := hr.2 q hp
      rw [← hr'] at this; exact ha this
    unfold started offH did
    rw [begun_busy _ _ hp, hr']; exact List.prefix_refl _
  | cons y ys =>
    refine List.IsPrefix.trans ?_ (done_started N t q)
    unfold offH did
    rw [← done_snoc _ _ y]
    exact done_mono _ ⟨ys, by rw [← hr']; simp⟩

theorem rest_pos {N : Prog} {t : St} (j : NI N t) (hr : t.rest N) (p : Nat) :
    N.act p (t.hist p) = .stop ∨ (∃ c k, t.pos p = .reading c k ∧ N.act p (t.hist p) = .read c) ∨
    (∃ c k v, t.pos p = .writing c k ∧ N.act p (t.hist p) = .write c v) := by
  cases h : t.pos p with
  | idle => exact .inl (hr.2 p h)
  | reading c k => exact .inr (.inl ⟨c, k, rfl, j.atR _ _ _ h⟩)
  | writing c k => obtain ⟨v, hv⟩ := j.atW _ _ _ h; exact .inr (.inr ⟨c, k, v, rfl, hv⟩)

/-- Who has not got as far as it should is just there. -/
theorem le_or {H H' : Nat → List Res} {t : St} (g : Grow H H') (hc : Comp H' t) (h : ∀ p, H p <+: t.hist p) (r : Nat) :
    H' r <+: t.hist r ∨ (t.hist r = H r ∧ H' r ≠ H r) := by
  rcases hc r with h1 | h1
  · exact .inl h1
  · rcases g r with e | ⟨x, e⟩
    · left; rw [e]; exact h r
    · rw [e] at h1
      rcases List.prefix_concat_iff.1 h1 with h2 | h2
      · left; rw [e, ← h2]; exact List.prefix_refl _
      · right
        refine ⟨h2.eq_of_length (Nat.le_antisymm h2.length_le (h r).length_le), ?_⟩
        rw [e]; simp

theorem nreads_off {N : Prog} {H : Nat → List Res} {p c : Nat} (h : N.act p (H p) = .read c) :
    nreads c (offH N H p) = nreads c (did N H p) + 1 := by
  unfold offH; rw [nreads_snoc, h]; simp

/-- At rest the network has done all that it could have done without channels. -/
theorem Meets.least {N : Prog} (hN : N.proper) {H : Nat → List Res} (h : Meets N H) {t : St} (j : NI N t)
    (hr : t.rest N) : ∀ p, H p <+: t.hist p := by
  induction h with
  | start => exact fun p => List.nil_prefix
  | @close H p c h hc ih =>
    intro r
    rcases le_or (grow_add H p .ok) (Meets.comp hN (.close h hc) j) ih r with h1 | ⟨h1, h2⟩
    · exact h1
    · exfalso
      by_cases hp : r = p
      · subst hp
        rw [← h1] at hc
        rcases rest_pos j hr r with h3 | ⟨c, k, h3, h4⟩ | ⟨c, k, v, h3, h4⟩ <;> simp_all
      · exact h2 (upd_ne _ _ hp)
  | @ended H p c h hrd hs ih =>
    intro r
    rcases le_or (grow_add H p .broken) (Meets.comp hN (.ended h hrd hs) j) ih r with h1 | ⟨h1, h2⟩
    · exact h1
    · exfalso
      by_cases hp : r = p
      · subst hp
        rw [← h1] at hrd
        rcases rest_pos j hr r with h3 | ⟨c', k, h3, h4⟩ | ⟨c', k, v, h3, h4⟩
        · rw [hrd] at h3; cases h3
        · rw [hrd] at h4; cases h4
          exact (j.restR hN (hr.1 c) h3).1
            (((done_mono _ (ih (N.wr c))).trans (done_started N t (N.wr c))).subset hs)
        · rw [hrd] at h4; cases h4
      · exact h2 (upd_ne _ _ hp)
  | @shut H p c v h hw hs ih =>
    intro r
    rcases le_or (grow_add H p .broken) (Meets.comp hN (.shut h hw hs) j) ih r with h1 | ⟨h1, h2⟩
    · exact h1
    · exfalso
      by_cases hp : r = p
      · subst hp
        have hwr := hN.write _ _ _ _ hw
        rw [← h1] at hw hs
        rcases rest_pos j hr r with h3 | ⟨c', k, h3, h4⟩ | ⟨c', k, v, h3, h4⟩
        · rw [hw] at h3; cases h3
        · rw [hw] at h4; cases h4
        · rw [hw] at h4; cases h4
          refine (j.restW hN (hr.1 c) h3).1 ?_
          rw [hwr]
          exact (done_started N t r).subset hs
      · exact h2 (upd_ne _ _ hp)
  | @meet H p q c v h hrd hw ho ih =>
    have hqp := Meets.ne hrd hw
    have hp := hN.read _ _ _ hrd
    have hq := hN.write _ _ _ _ hw
    have m := Meets.mi hN h
    have hcnt : nreads c (did N H p) = (wrote c (did N H q)).length := by
      have := m.opn c (by rw [hq]; exact ho)
      rw [hp, hq] at this; exact this
    intro r
    rcases le_or (grow_meet H hqp (.val v) .ok) (Meets.comp hN (.meet h hrd hw ho) j) ih r with h1 | ⟨h1, h2⟩
    · exact h1
    · exfalso
      by_cases e : r = q
      · subst e
        have h5 := nreads_mono c (rest_off hr (ih p) (by rw [hrd]; simp))
        rw [nreads_off hrd] at h5
        have hw' := hw
        rw [← h1] at hw'
        rcases rest_pos j hr r with h3 | ⟨c', k, h3, h4⟩ | ⟨c', k, v, h3, h4⟩
        · rw [hw'] at h3; cases h3
        · rw [hw'] at h4; cases h4
        · rw [hw'] at h4; cases h4
          have h6 := (j.restW hN (hr.1 c) h3).2
          rw [h1, hp] at h6
          unfold did at *
          omega
      · rw [upd_ne _ _ e] at h2
        by_cases e' : r = p
        · subst e'
          have h5 := (sent_mono c (rest_off hr (ih q) (by rw [hw]; simp))).length_le
          have h7 := sent_open (c := c) (as := did N H q) ho
          have h8 : Act.close c ∉ did N H q := ho
          unfold offH at h5
          rw [hw, sent_snoc] at h5
          simp [h8] at h5
          have hrd' := hrd
          rw [← h1] at hrd'
          rcases rest_pos j hr r with h3 | ⟨c', k, h3, h4⟩ | ⟨c', k, v, h3, h4⟩
          · rw [hrd'] at h3; cases h3
          · rw [hrd'] at h4; cases h4
            have h6 := (j.restR hN (hr.1 c) h3).2
            rw [h1, hq] at h6
            unfold did at *
            omega
          · rw [hrd'] at h4; cases h4
        · exact h2 (upd_ne _ _ e')

/-! ## Limit 0 -/

theorem cover {N : Prog} (hN : N.proper) {s : St} {e : Ev} (i' : NI N (s.step N e))
    (hcap : ∀ c, ((s.step N e).ch c).cap = 0) {H : Nat → List Res} (h : Meets N H) (hle : ∀ q, s.hist q <+: H q)
    (p : Nat) : ∃ H', Meets N H' ∧ (∀ q, H q <+: H' q) ∧ (s.step N e).hist p <+: H' p := by
  rcases h.comp hN i' p with h1 | h1
  · obtain ⟨r, hr⟩ := h1
    cases r with
    | nil => exact ⟨H, h, fun q => List.prefix_refl _, by rw [← hr, List.append_nil]; exact List.prefix_refl _⟩
    | cons x xs =>
      have hx : (s.step N e).hist p = H p ++ [x] := by
        have h2 := (hle p).length_le
        have h3 := congrArg List.length hr
        rw [List.length_append, List.length_cons] at h3
        rcases step_moves N s e p with h4 | ⟨-, y, h4⟩
        · rw [h4] at h3; omega
        · rw [h4, List.length_append, List.length_singleton] at h3
          have : xs = [] := List.eq_nil_of_length_eq_zero (by omega)
          rw [← hr, this]
      have hpre : H p ++ [x] <+: (s.step N e).hist p := by rw [hx]; exact List.prefix_refl _
      have hst : ∀ q, started N (s.step N e) q <+: offH N H q := fun q =>
        (step_started N s e q).trans (off_mono _ (hle q))
      have hca := i'.came hN hpre
      have m := Meets.mi hN h
      rw [hx]
      unfold came at hca
      cases ha : N.act p (H p) with
      | stop => rw [ha] at hca; exact hca.elim
      | close c =>
        rw [ha] at hca
        subst hca
        exact ⟨_, .close h ha, (grow_add _ _ _).le, by rw [upd_self]; exact List.prefix_refl _⟩
      | write c v =>
        rw [ha] at hca
        by_cases hs : Act.close c ∈ done (N.act p) (H p)
        · rw [hca.1 hs]
          exact ⟨_, .shut h ha hs, (grow_add _ _ _).le, by rw [upd_self]; exact List.prefix_refl _⟩
        · have hok := hca.2 hs
          subst hok
          have hq := hN.write _ _ _ _ ha
          have h2 := i'.writeRoom hN hpre ha
          have h3 := nreads_mono c (hst (N.rd c))
          have h4 := m.opn c (by rw [hq]; exact hs)
          rw [hq] at h4
          rw [hcap c] at h2
          unfold offH at h3
          rw [nreads_snoc] at h3
          unfold did at h3 h4
          have h5 : N.act (N.rd c) (H (N.rd c)) = .read c := by
            apply Classical.byContradiction
            intro h5
            rw [if_neg h5] at h3
            omega
          refine ⟨_, .meet h h5 ha hs, (grow_meet H (Meets.ne h5 ha) _ _).le, ?_⟩
          rw [upd_self]; exact List.prefix_refl _
      | read c =>
        rw [ha] at hca
        have hp := hN.read _ _ _ ha
        rcases hca with ⟨v, rfl, hv⟩ | ⟨rfl, h2, -⟩
        · have h3 := prefix_get (sent_mono c (hst (N.wr c))) hv
          by_cases hs : Act.close c ∈ did N H (N.wr c)
          · exfalso
            have h4 := m.cls c hs
            rw [hp] at h4
            unfold offH at h3
            rw [sent_closed c (List.prefix_append _ _) hs] at h3
            unfold did at h3 h4
            rw [List.getElem?_eq_none h4] at h3
            cases h3
          · have h4 := m.opn c hs
            have h5 := sent_open hs
            rw [hp] at h4
            unfold offH at h3
            rw [sent_snoc] at h3
            have h6 : ∃ w, N.act (N.wr c) (H (N.wr c)) = .write c w := by
              apply Classical.byContradiction
              intro h6
              have h7 : nreads c (done (N.act p) (H p)) < (sent c (did N H (N.wr c)) ++ ([] : List Nat)).length := by
                apply Classical.byContradiction
                intro h8
                have : (sent c (did N H (N.wr c)))[nreads c (done (N.act p) (H p))]? = none :=
                  List.getElem?_eq_none (by simpa using h8)
                cases hw : N.act (N.wr c) (H (N.wr c)) with
                | write c' w =>
                  by_cases hc : c' = c
                  · rw [hc] at hw; exact h6 ⟨w, hw⟩
                  · rw [hw] at h3; simp [hc, this, hs] at h3
                | _ => rw [hw] at h3; simp [this, hs] at h3
              rw [List.append_nil] at h7
              unfold did at *
              omega
            obtain ⟨w, hw⟩ := h6
            have hvw : w = v := by
              rw [hw] at h3
              unfold did at *
              rw [h4, ← h5] at h3
              simpa [hs] using h3
            subst hvw
            refine ⟨_, .meet h ha hw hs, (grow_meet H (Meets.ne ha hw) _ _).le, ?_⟩
            rw [upd_ne _ _ (Meets.ne ha hw).symm, upd_self]; exact List.prefix_refl _
        · have h3 := (hst (N.wr c)).subset h2
          unfold offH at h3
          rcases List.mem_append.1 h3 with h4 | h4
          · exact ⟨_, .ended h ha h4, (grow_add _ _ _).le, by rw [upd_self]; exact List.prefix_refl _⟩
          · have hc : N.act (N.wr c) (H (N.wr c)) = .close c := (List.mem_singleton.1 h4).symm
            have hne : p ≠ N.wr c := by
              intro e; rw [← e, ha] at hc; cases hc
            have hH := upd_ne H (H (N.wr c) ++ [.ok]) hne
            refine ⟨_, .ended (p := p) (c := c) (.close h hc) (by rw [hH]; exact ha) ?_,
              fun q => ((grow_add H (N.wr c) .ok).le q).trans ((grow_add _ p .broken).le q), ?_⟩
            · rw [upd_self, done_snoc, hc]; simp
            · rw [upd_self, hH]; exact List.prefix_refl _
  · exact ⟨H, h, fun q => List.prefix_refl _, h1⟩

theorem covers {N : Prog} (hN : N.proper) {s : St} {e : Ev} (i' : NI N (s.step N e))
    (hcap : ∀ c, ((s.step N e).ch c).cap = 0) {H : Nat → List Res} (h : Meets N H) (hle : ∀ q, s.hist q <+: H q)
    (b : Nat) : ∃ H', Meets N H' ∧ (∀ q, H q <+: H' q) ∧ ∀ p, p < b → (s.step N e).hist p <+: H' p := by
  induction b with
  | zero => exact ⟨H, h, fun q => List.prefix_refl _, fun p hp => absurd hp (by omega)⟩
  | succ b ih =>
    obtain ⟨H1, h1, h2, h3⟩ := ih
    obtain ⟨H2, h4, h5, h6⟩ := cover hN i' hcap h1 (fun q => (hle q).trans (h2 q)) b
    refine ⟨H2, h4, fun q => (h2 q).trans (h5 q), fun p hp => ?_⟩
    rcases Nat.lt_or_ge p b with h7 | h7
    · exact (h3 p h7).trans (h5 p)
    · have : p = b := by omega
      subst this; exact h6

theorem most {N : Prog} (hN : N.proper) {cap : Nat → Nat} (hcap : ∀ c, cap c = 0) (es : List Ev) :
    ∃ H, Meets N H ∧ ∀ p, (run N cap es).hist p <+: H p := by
  induction es using snoc_ind with
  | h0 => exact ⟨_, .start, fun p => List.nil_prefix⟩
  | h1 es e ih =>
    obtain ⟨H, h1, h2⟩ := ih
    have i' := NI.run hN cap (es ++ [e])
    have hc := run_cap N cap (es ++ [e])
    have hu := untouched N cap (es ++ [e])
    rw [run_snoc] at i' hc hu ⊢
    obtain ⟨H', h3, h4, h5⟩ := covers hN i' (fun c => by rw [hc, hcap]) h1 h2 (bound (es ++ [e]))
    refine ⟨H', h3, fun p => ?_⟩
    rcases Nat.lt_or_ge p (bound (es ++ [e])) with h6 | h6
    · exact h5 p h6
    · rw [(hu p (bound_spec _ p h6)).1]; exact List.nil_prefix

end Cobalt.Net
