import Verif.Net.Facts
/-! Helper: two histories of the same network. -/
namespace Cobalt.Net
open Chan (upd)

/-! ## The limits -/

theorem cap_upd (f : Nat → Chan.St) (c : Nat) (k : Chan.St) (h : k.cap = (f c).cap) (x : Nat) :
    (upd f c k x).cap = (f x).cap := by
  rw [Chan.upd_apply]; split
  · subst_vars; exact h
  · rfl

theorem settleR_cap (N : Prog) (s : St) (c x : Nat) : ((s.settleR N c).ch x).cap = (s.ch x).cap := by
  unfold St.settleR
  split
  · split
    · exact cap_upd _ _ _ (Chan.cap_step _ _) x
    · rfl
  · rfl

theorem settleW_cap (N : Prog) (s : St) (c x : Nat) : ((s.settleW N c).ch x).cap = (s.ch x).cap := by
  unfold St.settleW
  split
  · split
    · exact cap_upd _ _ _ (Chan.cap_step _ _) x
    · rfl
  · rfl

theorem on_cap (N : Prog) (s : St) (c x : Nat) (e : Chan.Ev) : ((s.on N c e).ch x).cap = (s.ch x).cap := by
  unfold St.on
  rw [settleW_cap, settleR_cap]
  exact cap_upd _ _ _ (Chan.cap_step _ _) x

theorem step_cap (N : Prog) (s : St) (e : Ev) (x : Nat) : ((s.step N e).ch x).cap = (s.ch x).cap := by
  cases e with
  | go p conn =>
    simp only [St.step]
    split
    · cases N.act p (s.hist p) with
      | read c => simp only [St.act]; rw [on_cap]; exact cap_upd _ _ _ (Chan.cap_step _ _) x
      | write c v => simp only [St.act]; rw [on_cap]; exact cap_upd _ _ _ (Chan.cap_step _ _) x
      | close c => simp only [St.act]; rw [on_cap]
      | stop => rfl
    · rfl
  | run c k => exact on_cap ..

theorem run_snoc (N : Prog) (cap : Nat → Nat) (es : List Ev) (e : Ev) :
    run N cap (es ++ [e]) = (run N cap es).step N e := by
  unfold run; rw [List.foldl_append]; rfl

theorem run_cap (N : Prog) (cap : Nat → Nat) (es : List Ev) (x : Nat) : ((run N cap es).ch x).cap = cap x := by
  induction es using snoc_ind with
  | h0 => rfl
  | h1 es e ih => rw [run_snoc, step_cap, ih]

/-! ## Histories grow by one thing at a time -/

/-- Coroutine `p` is where it was, or something has come of what it did. -/
def Moves (s s' : St) (p : Nat) : Prop :=
  (s'.hist p = s.hist p ∧ s'.pos p = s.pos p) ∨
  (s.pos p ≠ .idle ∧ s'.pos p = .idle ∧ ∃ x, s'.hist p = s.hist p ++ [x])

theorem settleR_moves (N : Prog) (s : St) (c p : Nat) : Moves s (s.settleR N c) p := by
  unfold St.settleR
  split
  · rename_i i hi
    split
    · rename_i x hx
      by_cases hp : p = N.rd c
      · subst hp
        right
        refine ⟨by rw [rdOn_some hi]; simp, upd_self _ _ _, _, upd_self _ _ _⟩
      · left
        exact ⟨upd_ne _ _ hp, upd_ne _ _ hp⟩
    · exact .inl ⟨rfl, rfl⟩
  · exact .inl ⟨rfl, rfl⟩

theorem settleW_moves (N : Prog) (s : St) (c p : Nat) : Moves s (s.settleW N c) p := by
  unfold St.settleW
  split
  · rename_i i hi
    split
    · rename_i x hx
      by_cases hp : p = N.wr c
      · subst hp
        right
        refine ⟨by rw [wrOn_some hi]; simp, upd_self _ _ _, _, upd_self _ _ _⟩
      · left
        exact ⟨upd_ne _ _ hp, upd_ne _ _ hp⟩
    · exact .inl ⟨rfl, rfl⟩
  · exact .inl ⟨rfl, rfl⟩

theorem on_moves (N : Prog) (s : St) (c p : Nat) (e : Chan.Ev) : Moves s (s.on N c e) p := by
  unfold St.on
  have h1 := settleR_moves N { s with ch := upd s.ch c ((s.ch c).step e) } c p
  have h2 := settleW_moves N (St.settleR N { s with ch := upd s.ch c ((s.ch c).step e) } c) c p
  generalize St.settleR N { s with ch := upd s.ch c ((s.ch c).step e) } c = t at *
  rcases h1 with ⟨a1, a2⟩ | ⟨a1, a2, x, a3⟩
  · rcases h2 with ⟨b1, b2⟩ | ⟨b1, b2, y, b3⟩
    · exact .inl ⟨b1.trans a1, b2.trans a2⟩
    · exact .inr ⟨by rw [a2] at b1; exact b1, b2, y, by rw [b3, a1]⟩
  · rcases h2 with ⟨b1, b2⟩ | ⟨b1, b2, y, b3⟩
    · exact .inr ⟨a1, by rw [b2, a2], x, by rw [b1, a3]⟩
    · exact absurd a2 b1

/-- In an event at most one thing comes of what a coroutine does, and it has not begun the next then. -/
theorem step_moves (N : Prog) (s : St) (e : Ev) (p : Nat) :
    (s.step N e).hist p = s.hist p ∨ ((s.step N e).pos p = .idle ∧ ∃ x, (s.step N e).hist p = s.hist p ++ [x]) := by
  have key : ∀ (t : St) c e, t.hist p = s.hist p →
      (t.on N c e).hist p = s.hist p ∨ ((t.on N c e).pos p = .idle ∧ ∃ x, (t.on N c e).hist p = s.hist p ++ [x]) := by
    intro t c e ht
    rcases on_moves N t c p e with h | h
    · left; rw [h.1, ht]
    · right; rw [ht] at h; exact h.2
  cases e with
  | run c k => exact key _ _ _ rfl
  | go q conn =>
    simp only [St.step]
    split
    · rename_i hq
      cases N.act q (s.hist q) with
      | read c => exact key _ _ _ rfl
      | write c v => exact key _ _ _ rfl
      | close c =>
        by_cases hp : p = q
        · subst hp
          right
          simp only [St.act]
          rcases on_moves N { s with hist := upd s.hist p (s.hist p ++ [.ok]) } c p .close with h | h
          · refine ⟨by rw [h.2]; exact hq, .ok, by rw [h.1]; exact upd_self _ _ _⟩
          · exact absurd hq h.1
        · exact key _ _ _ (upd_ne _ _ hp)
      | stop => exact .inl rfl
    · exact .inl rfl

theorem step_started (N : Prog) (s : St) (e : Ev) (p : Nat) : started N (s.step N e) p <+: offered N s p := by
  rcases step_moves N s e p with h | ⟨h1, x, h2⟩
  · have := started_offered N (s.step N e) p
    unfold offered at *
    rw [h] at this; exact this
  · unfold started
    rw [h1, begun_idle, h2, done_snoc]
    exact List.prefix_refl _

/-! ## Two histories -/

theorem prefix_get {a b : List Nat} (h : a <+: b) {k v : Nat} (hv : a[k]? = some v) : b[k]? = some v := by
  obtain ⟨t, rfl⟩ := h
  rw [List.getElem?_append_left, hv]
  rcases Nat.lt_or_ge k a.length with h | h
  · exact h
  · rw [List.getElem?_eq_none h] at hv; cases hv

/-- The same comes of the same in two states of the network in which nobody has done different things. -/
theorem agree {N : Prog} (hN : N.proper) {s t : St} (i : NI N s) (j : NI N t)
    (hc : ∀ q, ∃ W, started N s q <+: W ∧ started N t q <+: W) {p : Nat} {l : List Res} {x y : Res}
    (hx : l ++ [x] <+: s.hist p) (hy : l ++ [y] <+: t.hist p) : x = y := by
  have gx := i.good p l x hx
  have gy := j.good p l y hy
  unfold okAt at gx gy
  cases ha : N.act p l with
  | stop => rw [ha] at gx; exact gx.elim
  | close c => rw [ha] at gx gy; exact gx.trans gy.symm
  | write c v =>
    rw [ha] at gx gy
    by_cases h : Act.close c ∈ done (N.act p) l
    · rw [gx.1 h, gy.1 h]
    · rw [gx.2 h, gy.2 h]
  | read c =>
    obtain ⟨W, h1, h2⟩ := hc (N.wr c)
    have s1 := sent_mono c h1
    have s2 := sent_mono c h2
    have key : ∀ {a b : List Act} {k v : Nat}, a <+: W → b <+: W → (sent c a)[k]? = some v → Act.close c ∈ b →
        (sent c b).length ≤ k → False := by
      intro a b k v ha hb h3 h4 h5
      have h6 := sent_closed c hb h4
      have h7 := (sent_mono c ha).length_le
      have h8 : k < (sent c a).length := by
        rcases Nat.lt_or_ge k (sent c a).length with h | h
        · exact h
        · rw [List.getElem?_eq_none h] at h3; cases h3
      rw [h6] at h7; omega
    rcases i.readRes hN hx ha with ⟨v, rfl, hv⟩ | ⟨rfl, h3, h4⟩
    · rcases j.readRes hN hy ha with ⟨v', rfl, hv'⟩ | ⟨rfl, h3, h4⟩
      · have e1 := prefix_get s1 hv
        have e2 := prefix_get s2 hv'
        rw [e1] at e2
        cases e2; rfl
      · exact (key h1 h2 hv h3 h4).elim
    · rcases j.readRes hN hy ha with ⟨v', rfl, hv'⟩ | ⟨rfl, h5, h6⟩
      · exact (key h2 h1 hv' h3 h4).elim
      · rfl

/-- Nobody does different things in two histories. -/
theorem comparable {N : Prog} (hN : N.proper) {t : St} (j : NI N t) (cap : Nat → Nat) (es : List Ev) (p : Nat) :
    (run N cap es).hist p <+: t.hist p ∨ t.hist p <+: (run N cap es).hist p := by
  induction es using snoc_ind generalizing p with
  | h0 => exact .inl (List.nil_prefix)
  | h1 es e ih =>
    have i' := NI.run hN cap (es ++ [e])
    rw [run_snoc] at i' ⊢
    generalize run N cap es = s at *
    rcases step_moves N s e p with h | ⟨-, x, h⟩
    · rw [h]; exact ih p
    · rw [h]
      rcases ih p with h1 | h1
      · obtain ⟨r, hr⟩ := h1
        cases r with
        | nil =>
          right
          rw [List.append_nil] at hr
          rw [← hr]; exact List.prefix_append _ _
        | cons y ys =>
          left
          have hxy : x = y := by
            refine agree hN i' j (fun q => ?_) (p := p) (l := s.hist p) ?_ ?_
            · rcases ih q with h2 | h2
              · exact ⟨offered N t q, (step_started N s e q).trans (offered_mono h2), started_offered N t q⟩
              · exact ⟨offered N s q, step_started N s e q, (started_offered N t q).trans (offered_mono h2)⟩
            · rw [h]; exact List.prefix_refl _
            · rw [← hr]; exact ⟨ys, by simp⟩
          subst hxy
          rw [← hr]; exact ⟨ys, by simp⟩
      · exact .inr (h1.trans (List.prefix_append _ _))

/-- At rest nothing but stopping is left to do. -/
theorem rest_offered {N : Prog} {t : St} (hr : t.rest N) (q c : Nat) :
    sent c (offered N t q) = sent c (started N t q) ∧ nreads c (offered N t q) = nreads c (started N t q) ∧
      (Act.close c ∈ offered N t q ↔ Act.close c ∈ started N t q) := by
  unfold started offered
  cases hp : t.pos q with
  | idle =>
    rw [begun_idle, hr.2 q hp, sent_snoc, nreads_snoc]
    simp
  | _ => rw [begun_busy _ _ (by simp)]; exact ⟨rfl, rfl, Iff.rfl⟩

/-- What a network at rest has done, with the same limits or higher ones, is all that it can do. -/
theorem rest_max {N : Prog} (hN : N.proper) {t : St} (j : NI N t) (hr : t.rest N) {cap : Nat → Nat}
    (hcap : ∀ c, cap c ≤ (t.ch c).cap) (es : List Ev) (p : Nat) : (run N cap es).hist p <+: t.hist p := by
  induction es using snoc_ind generalizing p with
  | h0 => exact List.nil_prefix
  | h1 es e ih =>
    have i' := NI.run hN cap (es ++ [e])
    have hcap' := run_cap N cap (es ++ [e])
    rw [run_snoc] at i' hcap' ⊢
    generalize run N cap es = s at *
    have hst : ∀ q, started N (s.step N e) q <+: offered N t q := fun q =>
      (step_started N s e q).trans (offered_mono (ih q))
    rcases step_moves N s e p with h | ⟨-, x, h⟩
    · rw [h]; exact ih p
    · rw [h]
      have hx : s.hist p ++ [x] <+: (s.step N e).hist p := by rw [h]; exact List.prefix_refl _
      obtain ⟨r, hr'⟩ := ih p
      cases r with
      | nil =>
        exfalso
        rw [List.append_nil] at hr'
        have gx := i'.good p _ x hx
        unfold okAt at gx
        cases hp : t.pos p with
        | idle => rw [hr', hr.2 p hp] at gx; exact gx
        | reading c k =>
          have ha := j.atR _ _ _ hp
          obtain ⟨n1, n2⟩ := j.restR hN (hr.1 c) hp
          have ro := rest_offered hr (N.wr c) c
          rcases i'.readRes hN hx (by rw [hr']; exact ha) with ⟨v, -, hv⟩ | ⟨-, h3, -⟩
          · have h7 := (sent_mono c (hst (N.wr c))).length_le
            rw [ro.1, n2, hr'.symm] at h7
            rw [List.getElem?_eq_none h7] at hv; cases hv
          · exact n1 (ro.2.2.1 ((hst (N.wr c)).subset h3))
        | writing c k =>
          obtain ⟨v, ha⟩ := j.atW _ _ _ hp
          have hwr := hN.write _ _ _ _ ha
          obtain ⟨n1, n2⟩ := j.restW hN (hr.1 c) hp
          rw [hr', ha] at gx
          have hno : Act.close c ∉ done (N.act p) (t.hist p) := by
            intro h9
            rw [hwr] at n1
            exact n1 ((done_started N t p).subset h9)
          have hok := gx.2 hno
          subst hok
          have h8 := i'.writeRoom hN hx (by rw [hr']; exact ha)
          have h9 := nreads_mono c (hst (N.rd c))
          rw [(rest_offered hr (N.rd c) c).2.1] at h9
          rw [hcap' c, hr'] at h8
          have := hcap c
          omega
      | cons y ys =>
        have hxy : x = y := by
          refine agree hN i' j (fun q => ⟨offered N t q, hst q, started_offered N t q⟩) (p := p) hx ?_
          rw [← hr']; exact ⟨ys, by simp⟩
        subst hxy
        rw [← hr']; exact ⟨ys, by simp⟩

theorem hist_mono (N : Prog) (cap : Nat → Nat) (es more : List Ev) (p : Nat) :
    (run N cap es).hist p <+: (run N cap (es ++ more)).hist p := by
  induction more using snoc_ind with
  | h0 => rw [List.append_nil]; exact List.prefix_refl _
  | h1 more e ih =>
    rw [← List.append_assoc, run_snoc]
    rcases step_moves N (run N cap (es ++ more)) e p with h | ⟨-, x, h⟩
    · rw [h]; exact ih
    · rw [h]; exact ih.trans (List.prefix_append _ _)

end Cobalt.Net
