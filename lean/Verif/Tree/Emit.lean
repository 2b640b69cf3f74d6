import Verif.Tree.Shape
/-! Helper: cancellations, and the destruction of promises. -/
namespace Cobalt.Tree
open Prom (Out upd)

/-- If coroutine `c` is cancelled then what it waits for was told. -/
def Cl (s : St) (c : Nat) : Prop :=
  s.cancelled c = true → (∀ x, s.pos c = .onOp x → s.told c = true) ∧ ∀ r, s.pos c = .on r → s.cancelled r = true

/-- Who awaits comes before who is awaited. -/
def Fwd (s : St) : Prop := ∀ p q, s.pos p = .on q → p < q ∧ q < s.next ∧ s.par q = p

/-- Coroutine `r` is cancelled. -/
structure Em (s s' : St) (r : Nat) : Prop where
  same : s' = { s with cancelled := s'.cancelled, told := s'.told }
  mono : ∀ c, s.cancelled c = true → s'.cancelled c = true
  self : s'.cancelled r = true
  why : ∀ c, s'.cancelled c = true → s.cancelled c = true ∨ c = r ∨ c ≠ 0 ∧ s'.cancelled (s.par c) = true
  told : ∀ c, s.told c = true → s'.told c = true
  toldc : ∀ c, s'.told c = true → s.told c = true ∨ s'.cancelled c = true
  new : ∀ c, s.next ≤ c → s'.cancelled c = s.cancelled c

theorem upd_true {f : Nat → Bool} {i j : Nat} (h : f j = true) : upd f i true j = true := by
  simp only [Prom.upd_apply]; split <;> simp_all

theorem emit_ok (d : Nat) : ∀ (s : St) (r : Nat), Fwd s → r < s.next → s.next ≤ r + d →
    Em s (s.emit d r) r ∧ ∀ X : Nat → Prop, (∀ c, ¬ X c → Cl s c) → ∀ c, ¬ X c → Cl (s.emit d r) c := by
  induction d with
  | zero => intro s r _ h1 h2; omega
  | succ d ih =>
    intro s r hf hr hd
    have hone : ∀ tl : Nat → Bool, (∀ c, s.told c = true → tl c = true) →
        (∀ c, tl c = true → s.told c = true ∨ upd s.cancelled r true c = true) →
        Em s { s with cancelled := upd s.cancelled r true, told := tl } r := fun tl h1 h2 =>
      { same := rfl, mono := fun c hc => upd_true hc, self := upd_same _ _ _
        why := fun c hc => by
          by_cases e : c = r
          · exact .inr (.inl e)
          · dsimp only at hc; rw [upd_diff _ _ e] at hc; exact .inl hc
        told := h1, toldc := h2
        new := fun c hc => by dsimp only; rw [upd_diff _ _ (by omega)] }
    have hoth : ∀ (tl : Nat → Bool) (c : Nat), c ≠ r → (∀ c, s.told c = true → tl c = true) → Cl s c →
        Cl { s with cancelled := upd s.cancelled r true, told := tl } c := by
      intro tl c hc ht h h1
      dsimp only at h1
      rw [upd_diff _ _ hc] at h1
      exact ⟨fun x hx => ht c ((h h1).1 x hx), fun q hq => upd_true ((h h1).2 q hq)⟩
    cases hp : s.pos r with
    | onOp x =>
      have e : s.emit (d + 1) r = { s with cancelled := upd s.cancelled r true, told := upd s.told r true } := by
        simp only [St.emit, hp]
      rw [e]
      refine ⟨hone _ (fun c hc => upd_true hc) (fun c hc => ?_), fun X hX c hc => ?_⟩
      · by_cases ec : c = r
        · subst ec; right; exact upd_same _ _ _
        · rw [upd_diff _ _ ec] at hc; exact .inl hc
      · by_cases ec : c = r
        · subst ec
          intro _
          refine ⟨fun _ _ => upd_same _ _ _, fun q hq => ?_⟩
          dsimp only at hq; rw [hp] at hq; cases hq
        · exact hoth _ c ec (fun c hc => upd_true hc) (hX c hc)
    | on q =>
      have e : s.emit (d + 1) r = St.emit { s with cancelled := upd s.cancelled r true } d q := by
        simp only [St.emit, hp]
      obtain ⟨h1, h2, h3⟩ := hf r q hp
      have h0 := hone s.told (fun _ h => h) (fun _ h => .inl h)
      obtain ⟨he, hcl⟩ := ih { s with cancelled := upd s.cancelled r true } q hf h2 (by dsimp only; omega)
      rw [← e] at he hcl
      generalize hs' : s.emit (d + 1) r = s' at he hcl
      have hrc : s'.cancelled r = true := he.mono r (upd_same _ _ _)
      refine ⟨?_, fun X hX c hc => ?_⟩
      · refine ⟨he.same, fun c hc => he.mono c (upd_true hc), hrc, fun c hc => ?_, he.told, fun c hc => he.toldc c hc,
          fun c hc => ?_⟩
        · rcases he.why c hc with h | h | h
          · dsimp only at h
            by_cases ec : c = r
            · exact .inr (.inl ec)
            · rw [upd_diff _ _ ec] at h; exact .inl h
          · subst h; exact .inr (.inr ⟨by omega, by rw [h3]; exact hrc⟩)
          · exact .inr (.inr h)
        · rw [he.new c hc]; dsimp only; rw [upd_diff _ _ (by omega)]
      · have hpos : s'.pos = s.pos := by rw [he.same]
        by_cases ec : c = r
        · subst ec
          intro _
          rw [hpos, hp]
          refine ⟨fun x hx => (by cases hx), fun q' hq' => ?_⟩
          cases hq'
          exact he.self
        · exact hcl (fun c => X c ∨ c = r) (fun c hc => hoth _ c (fun e => hc (.inr e)) (fun _ h => h)
            (hX c fun h => hc (.inl h))) c (fun h => h.elim hc ec)
    | idle =>
      have e : s.emit (d + 1) r = { s with cancelled := upd s.cancelled r true, told := s.told } := by
        simp only [St.emit, hp]
      rw [e]
      refine ⟨hone _ (fun c hc => hc) (fun c hc => .inl hc), fun X hX c hc => ?_⟩
      by_cases ec : c = r
      · subst ec
        intro _
        dsimp only; rw [hp]
        exact ⟨fun _ h => (by cases h), fun _ h => (by cases h)⟩
      · exact hoth _ c ec (fun c hc => hc) (hX c hc)
    | ended o =>
      have e : s.emit (d + 1) r = { s with cancelled := upd s.cancelled r true, told := s.told } := by
        simp only [St.emit, hp]
      rw [e]
      refine ⟨hone _ (fun c hc => hc) (fun c hc => .inl hc), fun X hX c hc => ?_⟩
      by_cases ec : c = r
      · subst ec
        intro _
        dsimp only; rw [hp]
        exact ⟨fun _ h => (by cases h), fun _ h => (by cases h)⟩
      · exact hoth _ c ec (fun c hc => hc) (hX c hc)

/-- The promise of coroutine `c` is destroyed. -/
def Ph.lost : Ph → Bool
  | .orphan | .gone | .stuck => true
  | _ => false

/-- What holds also while the promises a coroutine holds are being destroyed. `asked`: the first coroutine was
cancelled. -/
structure M (asked : Prop) (s : St) (ph : Nat → Ph) : Prop where
  ps : PS s.prom s.awaits ph
  fwd : Fwd s
  cl : ∀ c, Cl s c
  orphan : ∀ c, ph c = .orphan → s.cancelled c = true
  why : ∀ c, s.cancelled c = true →
    c = 0 ∧ asked ∨ c ≠ 0 ∧ (ph c).lost = true ∨ c ≠ 0 ∧ s.cancelled (s.par c) = true
  toldc : ∀ c, s.told c = true → s.cancelled c = true

/-- Only promises and cancellations have changed. -/
structure Sm (s s' : St) : Prop where
  same : s' = { s with prom := s'.prom, cancelled := s'.cancelled, told := s'.told }
  mono : ∀ c, s.cancelled c = true → s'.cancelled c = true
  new : ∀ c, s.next ≤ c → s'.cancelled c = s.cancelled c
  told : ∀ c, s.told c = true → s'.told c = true

theorem Sm.refl (s : St) : Sm s s := ⟨rfl, fun _ h => h, fun _ _ => rfl, fun _ h => h⟩

theorem Sm.trans {s s' s'' : St} (h : Sm s s') (h' : Sm s' s'') : Sm s s'' := by
  refine ⟨?_, fun c hc => h'.mono c (h.mono c hc), fun c hc => ?_, fun c hc => h'.told c (h.told c hc)⟩
  · have e := h'.same
    rw [h.same] at e
    exact e
  · rw [h'.new c (by rw [h.same]; exact hc), h.new c hc]

variable {asked : Prop} {s : St} {ph : Nat → Ph}

/-- The signal of `r` is emitted. -/
theorem M.emit (m : M asked s ph) {r : Nat} (hr : r < s.next) {t : Prom.St} {ph' : Nat → Ph} (hps : PS t s.awaits ph')
    (hl : ∀ c, (ph c).lost = true → (ph' c).lost = true) (ho : ∀ c, ph' c = .orphan → ph c = .orphan ∨ c = r)
    (hw : r = 0 ∧ asked ∨ r ≠ 0 ∧ (ph' r).lost = true) (u : Prom.St) :
    M asked { St.emit { s with prom := u } s.next r with prom := t } ph' ∧
    Sm s { St.emit { s with prom := u } s.next r with prom := t } ∧
    (St.emit { s with prom := u } s.next r).cancelled r = true := by
  obtain ⟨he, hcl⟩ := emit_ok s.next { s with prom := u } r m.fwd hr (by dsimp only; omega)
  generalize hs' : St.emit { s with prom := u } s.next r = s' at he hcl
  have e1 : s'.pos = s.pos := by rw [he.same]
  have e2 : s'.next = s.next := by rw [he.same]
  have e3 : s'.par = s.par := by rw [he.same]
  have e4 : s'.awaits = s.awaits := by rw [he.same]
  refine ⟨⟨?_, ?_, ?_, fun c hc => ?_, fun c hc => ?_, fun c hc => ?_⟩, ⟨?_, he.mono, he.new, he.told⟩, he.self⟩
  · dsimp only; rw [e4]; exact hps
  · intro p q hp
    dsimp only at hp ⊢
    rw [e1] at hp; rw [e2, e3]
    exact m.fwd p q hp
  · intro c
    exact hcl (fun _ => False) (fun c _ => m.cl c) c (fun h => h)
  · rcases ho c hc with h | h
    · exact he.mono c (m.orphan c h)
    · subst h; exact he.self
  · dsimp only at hc ⊢
    rw [e3]
    rcases he.why c hc with h | h | h
    · rcases m.why c h with h | h | h
      · exact .inl h
      · exact .inr (.inl ⟨h.1, hl c h.2⟩)
      · exact .inr (.inr ⟨h.1, he.mono _ h.2⟩)
    · subst h
      rcases hw with h | h
      · exact .inl h
      · exact .inr (.inl h)
    · exact .inr (.inr h)
  · rcases he.toldc c hc with h | h
    · exact he.mono c (m.toldc c h)
    · exact h
  · conv => lhs; rw [he.same]

/-- Only the promises change. -/
theorem M.quiet (m : M asked s ph) {t : Prom.St} {ph' : Nat → Ph} (hps : PS t s.awaits ph')
    (hl : ∀ c, (ph c).lost = true → (ph' c).lost = true) (ho : ∀ c, ph' c = .orphan → ph c = .orphan) :
    M asked { s with prom := t } ph' := by
  refine ⟨hps, m.fwd, m.cl, fun c hc => m.orphan c (ho c hc), fun c hc => ?_, m.toldc⟩
  rcases m.why c hc with h | h | h
  · exact .inl h
  · exact .inr (.inl ⟨h.1, hl c h.2⟩)
  · exact .inr (.inr h)

/-- A promise is destroyed, and not the first or the first was asked to stop. -/
theorem M.drop (m : M asked s ph) {r : Nat} (hr : r < s.next) (hp : ∀ a, ph r ≠ .awaited a) (hu : ph r ≠ .unborn)
    (hw : r = 0 → asked) :
    M asked (s.drop r) (upd ph r (dropPh (ph r))) ∧ Sm s (s.drop r) := by
  have hlost : ∀ q, (∀ c, (ph c).lost = true → (upd ph r q c).lost = true) ∨ (ph r).lost = true ∨ q.lost = false := by
    intro q
    by_cases h1 : (ph r).lost = true
    · exact .inr (.inl h1)
    · by_cases h2 : q.lost = false
      · exact .inr (.inr h2)
      · refine .inl fun c hc => ?_
        by_cases e : c = r
        · subst e; rw [upd_same]; simpa using h2
        · rw [upd_diff _ _ e]; exact hc
  have hdone : ∀ o, ph r = .over o ∨ ph r = .taken o → dropPh (ph r) = .gone →
      M asked (s.drop r) (upd ph r (dropPh (ph r))) ∧ Sm s (s.drop r) := by
    intro o ho e
    obtain ⟨h1, h2⟩ := m.ps.drop_done ho
    have e' : s.drop r = { s with prom := (s.prom.step (.leave r)).step (.drop r) } := by
      have : s.signal r (.leave r) = { s with prom := s.prom.step (.leave r) } := by
        simp only [St.signal, h2, ne_eq, not_true, if_false]
      simp only [St.drop, this]
    rw [e', e]
    refine ⟨m.quiet h1 (fun c hc => ?_) (fun c hc => ?_), ⟨rfl, fun _ h => h, fun _ _ => rfl, fun _ h => h⟩⟩
    · by_cases ec : c = r
      · subst ec; rw [upd_same]; rfl
      · rw [upd_diff _ _ ec]; exact hc
    · by_cases ec : c = r
      · subst ec; rw [upd_same] at hc; cases hc
      · rw [upd_diff _ _ ec] at hc; exact hc
  have hnone : recOf r (ph r) = none → dropPh (ph r) = ph r →
      M asked (s.drop r) (upd ph r (dropPh (ph r))) ∧ Sm s (s.drop r) := by
    intro h e
    obtain ⟨h1, h2, -⟩ := m.ps.drop_none h
    have e' : s.drop r = s := by
      have : s.signal r (.leave r) = s := by
        simp only [St.signal, h1, ne_eq, not_true, if_false]
      simp only [St.drop, this, h2]
    rw [e', e, ← upd_id ph r (ph r) rfl]
    exact ⟨m, Sm.refl s⟩
  cases hph : ph r with
  | unborn => exact absurd hph hu
  | awaited a => exact absurd hph (hp a)
  | over o => rw [← hph]; exact hdone o (.inl hph) (by rw [hph]; rfl)
  | taken o => rw [← hph]; exact hdone o (.inr hph) (by rw [hph]; rfl)
  | orphan => rw [← hph]; exact hnone (by rw [hph]; rfl) (by rw [hph]; rfl)
  | gone => rw [← hph]; exact hnone (by rw [hph]; rfl) (by rw [hph]; rfl)
  | stuck => rw [← hph]; exact hnone (by rw [hph]; rfl) (by rw [hph]; rfl)
  | runs =>
    obtain ⟨h1, h2⟩ := m.ps.drop_runs hph
    have e' : s.drop r = { St.emit { s with prom := s.prom.step (.leave r) } s.next r with
        prom := (s.prom.step (.leave r)).step (.drop r) } := by
      have e0 : s.signal r (.leave r) = St.emit { s with prom := s.prom.step (.leave r) } s.next r := by
        have : (s.prom.step (.leave r)).signals r ≠ s.prom.signals r := by rw [h2]; omega
        simp only [St.signal, this, ne_eq, not_false_eq_true, if_true]
      have e1 : (St.emit { s with prom := s.prom.step (.leave r) } s.next r).prom = s.prom.step (.leave r) := by
        rw [(emit_ok s.next { s with prom := s.prom.step (.leave r) } r m.fwd hr (by dsimp only; omega)).1.same]
      simp only [St.drop, e0, e1]
    have hl : ∀ c, (ph c).lost = true → (upd ph r .orphan c).lost = true := by
      intro c hc
      by_cases ec : c = r
      · subst ec; rw [upd_same]; rfl
      · rw [upd_diff _ _ ec]; exact hc
    have := m.emit hr h1 hl (fun c hc => by
        by_cases ec : c = r
        · exact .inr ec
        · rw [upd_diff _ _ ec] at hc; exact .inl hc)
      (by
        by_cases e0 : r = 0
        · exact .inl ⟨e0, hw e0⟩
        · exact .inr ⟨e0, by rw [upd_same]; rfl⟩) (s.prom.step (.leave r))
    rw [e']
    exact ⟨this.1, this.2.1⟩

/-- The stages after the promises in `rs` are destroyed. -/
def dropped (ph : Nat → Ph) (rs : List Nat) : Nat → Ph := fun c => if c ∈ rs then dropPh (ph c) else ph c

theorem dropPh_idem (q : Ph) : dropPh (dropPh q) = dropPh q := by cases q <;> rfl

theorem M.drops (rs : List Nat) : ∀ {s : St} {ph : Nat → Ph}, M asked s ph →
    (∀ r ∈ rs, r < s.next ∧ (∀ a, ph r ≠ .awaited a) ∧ ph r ≠ .unborn ∧ r ≠ 0) →
    M asked (s.drops rs) (dropped ph rs) ∧ Sm s (s.drops rs) := by
  induction rs with
  | nil =>
    intro s ph m _
    have : dropped ph [] = ph := by funext c; simp [dropped]
    rw [this]; exact ⟨m, Sm.refl s⟩
  | cons r rs ih =>
    intro s ph m hr
    obtain ⟨h1, h2, h3, h4⟩ := hr r (List.mem_cons_self)
    obtain ⟨m', sm⟩ := m.drop h1 h2 h3 (fun e => absurd e h4)
    have hnx : (s.drop r).next = s.next := by rw [sm.same]
    obtain ⟨m'', sm'⟩ := ih m' (fun q hq => by
      obtain ⟨g1, g2, g3, g4⟩ := hr q (List.mem_cons_of_mem _ hq)
      refine ⟨by rw [hnx]; exact g1, ?_, ?_, g4⟩
      · intro a
        by_cases e : q = r
        · subst e; rw [upd_same]; revert h2; cases ph q <;> simp [dropPh]
        · rw [upd_diff _ _ e]; exact g2 a
      · by_cases e : q = r
        · subst e; rw [upd_same]; revert h3; cases ph q <;> simp [dropPh]
        · rw [upd_diff _ _ e]; exact g3)
    have e : dropped (upd ph r (dropPh (ph r))) rs = dropped ph (r :: rs) := by
      funext c
      by_cases hc : c = r
      · subst hc
        simp only [dropped, upd_same, List.mem_cons, true_or, if_true]
        split
        · exact dropPh_idem _
        · rfl
      · simp [dropped, hc]
    rw [e] at m''
    exact ⟨m'', sm.trans sm'⟩

end Cobalt.Tree
