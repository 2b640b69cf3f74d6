import Verif.Tree.Inv
/-! Helper: the invariant of trees of coroutines holds after every history. -/
namespace Cobalt.Tree
open Prom (Out upd)

/-- What a step does to coroutines whose promise is destroyed. -/
structure Rel (ph ph' : Nat → Ph) (pos' : Nat → Pos) : Prop where
  keep : ∀ c, ph c = .stuck → ph' c = .stuck
  orph : ∀ c, ph c = .orphan → ph' c = .orphan ∨ ∃ o, ph' c = lostPh o ∧ pos' c = .ended o
  from_ : ∀ c, ph' c = .stuck → ph c = .stuck ∨ ph c = .orphan

theorem Rel.refl (ph : Nat → Ph) (pos' : Nat → Pos) : Rel ph ph pos' := ⟨fun _ h => h, fun _ h => .inl h, fun _ h => .inl h⟩

theorem Rel.upd {ph : Nat → Ph} {pos' : Nat → Pos} {r : Nat} {q : Ph} (h1 : ph r ≠ .stuck) (h2 : ph r ≠ .orphan)
    (h3 : q ≠ .stuck) : Rel ph (Prom.upd ph r q) pos' := by
  refine ⟨fun c hc => ?_, fun c hc => ?_, fun c hc => ?_⟩
  · rw [upd_diff _ _ (fun e => h1 (by rw [← e]; exact hc))]; exact hc
  · rw [upd_diff _ _ (fun e => h2 (by rw [← e]; exact hc))]; exact .inl hc
  · by_cases e : c = r
    · subst e; rw [upd_same] at hc; exact absurd hc h3
    · rw [upd_diff _ _ e] at hc; exact .inl hc

theorem Rel.drop {ph : Nat → Ph} {pos' : Nat → Pos} (rs : List Nat) : Rel ph (dropped ph rs) pos' := by
  refine ⟨fun c hc => ?_, fun c hc => ?_, fun c hc => ?_⟩
  · simp only [dropped, hc]; split <;> rfl
  · left; simp only [dropped, hc]; split <;> rfl
  · left
    simp only [dropped] at hc
    split at hc
    · revert hc; cases ph c <;> simp [dropPh]
    · exact hc

theorem Rel.fin {ph : Nat → Ph} {pos' : Nat → Pos} (rs : List Nat) {c : Nat} {q : Ph} {o : Out} (hcs : c ∉ rs)
    (h1 : ph c ≠ .stuck) (h2 : ph c = .orphan → q = lostPh o ∧ pos' c = .ended o)
    (h3 : q = .stuck → ph c = .orphan) : Rel ph (Prom.upd (dropped ph rs) c q) pos' := by
  have h := Rel.drop (ph := ph) (pos' := pos') rs
  refine ⟨fun d hd => ?_, fun d hd => ?_, fun d hd => ?_⟩
  · rw [upd_diff _ _ (fun e => h1 (by rw [← e]; exact hd))]; exact h.keep d hd
  · by_cases e : d = c
    · subst e; rw [upd_same]; exact .inr ⟨o, h2 hd⟩
    · rw [upd_diff _ _ e]; exact h.orph d hd
  · by_cases e : d = c
    · subst e; rw [upd_same] at hd; exact .inr (h3 hd)
    · rw [upd_diff _ _ e] at hd; exact h.from_ d hd

theorem settle_no {s : St} {p r : Nat} (h : s.pos p ≠ .on r) : s.settle p r = s := by
  simp only [St.settle, if_neg h]

theorem settle_wait {s : St} {p r d : Nat} (h : s.pos p = .on r) (ha : s.prom.aw (s.aid p) = some { self := d }) :
    s.settle p r = s := by
  simp only [St.settle, if_pos h, ha]

theorem settle_got {s : St} {p r d : Nat} {g : Prom.Got} (h : s.pos p = .on r)
    (ha : s.prom.aw (s.aid p) = some { self := d, got := some g }) : s.settle p r = s.result p (ofGot g) := by
  simp only [St.settle, if_pos h, ha]

variable {N : Prog} {asked : Prop} {s : St} {ph : Nat → Ph}

theorem TI.await (i : TI asked s ph) {c k : Nat} (hl : c < s.next) (hc : s.pos c = .idle) :
    ∃ ph', TI asked (s.act c (.await k)) ph' ∧ Rel ph ph' (s.act c (.await k)).pos := by
  have hon : ∀ r, s.pos c ≠ .on r := fun r h => by rw [hc] at h; cases h
  have hen : ∀ o, s.pos c ≠ .ended o := fun r h => by rw [hc] at h; cases h
  simp only [St.act]
  cases hk : s.cancelled c with
  | true => exact ⟨ph, i.result hl hon hen _, Rel.refl _ _⟩
  | false =>
    simp only [Bool.false_eq_true, if_false]
    cases hr : (s.kids c)[k]? with
    | none => exact ⟨ph, i.result hl hon hen _, Rel.refl _ _⟩
    | some r =>
      dsimp only
      have hmem := List.mem_of_getElem? hr
      have hdone : ∀ o g, ph r = .over o ∨ ph r = .taken o →
          PS (s.prom.step (.await s.awaits r)) (s.awaits + 1) (upd ph r (.taken o)) →
          (s.prom.step (.await s.awaits r)).aw s.awaits = some { self := r, got := some g } →
          ∃ ph', TI asked (St.settle { s with
              prom := s.prom.step (.await s.awaits r), pos := upd s.pos c (.on r), aid := upd s.aid c s.awaits
              awaits := s.awaits + 1 } c r) ph' ∧ Rel ph ph' (St.settle { s with
              prom := s.prom.step (.await s.awaits r), pos := upd s.pos c (.on r), aid := upd s.aid c s.awaits
              awaits := s.awaits + 1 } c r).pos := by
        intro o g hp hps ha
        rw [settle_got (d := r) (g := g) (upd_same _ _ _) (by dsimp only; rw [upd_same]; exact ha)]
        refine ⟨upd ph r (.taken o), ?_, Rel.upd ?_ ?_ (by simp)⟩
        · have := i.takes hl hc hmem hp hps (ofGot g)
          simp only [St.result, upd_over]
          exact this
        · rcases hp with hp | hp <;> rw [hp] <;> simp
        · rcases hp with hp | hp <;> rw [hp] <;> simp
      rcases i.kid hc hmem with hp | ⟨o, hp⟩ | ⟨o, hp⟩
      · have hps := i.ps.await_runs hp
        have ha := hps.cur r s.awaits (upd_same _ _ _)
        rw [settle_wait (d := r) (upd_same _ _ _) (by dsimp only; rw [upd_same]; exact ha)]
        exact ⟨_, i.waits hl hc hk hmem hp hps, Rel.upd (by rw [hp]; simp) (by rw [hp]; simp) (by simp)⟩
      · obtain ⟨h1, h2⟩ := i.ps.await_over hp
        exact hdone o _ (.inl hp) h1 h2
      · obtain ⟨h1, h2⟩ := i.ps.await_taken hp
        exact hdone o _ (.inr hp) (by rw [← upd_id ph r _ hp]; exact h1) h2

theorem drops_pos (i : TI asked s ph) {c : Nat} (hc : s.pos c = .idle) :
    Sm s (s.drops (s.kids c).reverse) := (i.toM.drops _ (i.kids_ok hc)).2

theorem TI.fin (i : TI asked s ph) {c : Nat} {o : Out} (hl : c < s.next) (hc : s.pos c = .idle) :
    ∃ ph', TI asked (s.act c (.fin o)) ph' ∧ Rel ph ph' (s.act c (.fin o)).pos := by
  have hcc : c ∉ s.kids c := fun h => by have := (i.par c c h).2.1; omega
  have hcr : c ∉ (s.kids c).reverse := fun h => hcc (List.mem_reverse.1 h)
  obtain ⟨m, sm⟩ := i.toM.drops _ (i.kids_ok hc)
  have e1 : (s.drops (s.kids c).reverse).pos = s.pos := by rw [sm.same]
  have e2 : (s.drops (s.kids c).reverse).hist = s.hist := by rw [sm.same]
  have e4 : (s.drops (s.kids c).reverse).awaits = s.awaits := by rw [sm.same]
  have e6 : (s.drops (s.kids c).reverse).aid = s.aid := by rw [sm.same]
  have hph : dropped ph (s.kids c).reverse c = ph c := by simp [dropped, hcc]
  have mps := m.ps
  rw [e4] at mps
  have hnew : ∀ d, s.next ≤ d → s.hist d = [] := fun d hd => (i.new d hd).1
  have hfit := i.fits c
  -- nobody awaits it
  have hno : (∀ a, ph c ≠ .awaited a) → ∀ q, PS ((s.drops (s.kids c).reverse).prom.step (.finish c o)) s.awaits
      (upd (dropped ph (s.kids c).reverse) c q) → q.fits (.ended o) → q.lost = (ph c).lost → q ≠ .orphan →
      (∀ a, q ≠ .awaited a) → q ≠ .unborn → ph c ≠ .stuck → (ph c = .orphan → q = lostPh o) →
      (q = .stuck → ph c = .orphan) →
      ∃ ph', TI asked (s.act c (.fin o)) ph' ∧ Rel ph ph' (s.act c (.fin o)).pos := by
    intro hna q hps hf hlost q1 q2 q3 h1 h2 h3
    have hnw : ∀ p, s.pos p ≠ .on c := fun p hp => hna _ (i.on p c hp).2
    have e : s.act c (.fin o) = { s.drops (s.kids c).reverse with
        prom := (s.drops (s.kids c).reverse).prom.step (.finish c o), pos := upd s.pos c (.ended o), hist := s.hist } := by
      simp only [St.act]
      rw [settle_no, ← e2]
      dsimp only
      by_cases hp : s.par c = c
      · rw [hp, upd_same]; simp
      · rw [upd_diff _ _ hp]; exact hnw _
    rw [e]
    refine ⟨_, i.finish hl hc hps hf hlost q1 q2 q3 (upd_same _ _ _) (fun d hd => ?_) hnew,
      Rel.fin _ hcr h1 (fun h => ⟨h2 h, upd_same _ _ _⟩) h3⟩
    rw [upd_diff _ _ hd, if_neg (hnw d)]
  cases hp : ph c with
  | unborn => exact absurd hp ((i.alive c).2 hl)
  | runs =>
    exact hno (by rw [hp]; simp) _ (mps.finish_runs o (hph.trans hp)) rfl (by rw [hp]; rfl) (by simp) (by simp) (by simp)
      (by rw [hp]; simp) (by rw [hp]; simp) (by simp)
  | orphan =>
    refine hno (by rw [hp]; simp) _ (mps.finish_orphan o (hph.trans hp)) ?_ ?_ ?_ ?_ ?_ (by rw [hp]; simp) (fun _ => rfl)
      (fun _ => hp)
    · cases o with
      | val v => exact ⟨_, rfl⟩
      | exc e => exact ⟨_, rfl⟩
    · rw [hp]; cases o <;> rfl
    · cases o <;> simp [lostPh]
    · cases o <;> simp [lostPh]
    · cases o <;> simp [lostPh]
  | over o' => rw [hp] at hfit; rw [hc] at hfit; cases hfit
  | taken o' => rw [hp] at hfit; rw [hc] at hfit; cases hfit
  | gone => rw [hp] at hfit; obtain ⟨o', h⟩ := hfit; rw [hc] at h; cases h
  | stuck => rw [hp] at hfit; obtain ⟨o', h⟩ := hfit; rw [hc] at h; cases h
  | awaited a =>
    obtain ⟨h1, h2⟩ := mps.finish_awaited o (hph.trans hp)
    have hw := i.awd c a hp
    obtain ⟨hw1, hw2⟩ := i.on _ _ hw
    rw [hp] at hw2
    injection hw2 with hw2
    have hpc : s.par c ≠ c := fun e => by rw [e, hc] at hw; cases hw
    have e : s.act c (.fin o) = { s.drops (s.kids c).reverse with
        prom := (s.drops (s.kids c).reverse).prom.step (.finish c o)
        pos := upd (upd s.pos c (.ended o)) (s.par c) .idle
        hist := upd s.hist (s.par c) (s.hist (s.par c) ++ [ofGot (got o)]) } := by
      simp only [St.act]
      rw [settle_got (d := c) (g := got o)]
      · simp only [St.result, e2]
      · dsimp only; rw [upd_diff _ _ hpc]; exact hw
      · dsimp only; rw [e6, ← hw2]; exact h2
    rw [e]
    have hpl : s.par c < s.next := Nat.lt_trans (i.par _ _ hw1).2.1 hl
    refine ⟨_, i.finish hl hc h1 rfl (by rw [hp]; rfl) (by simp) (by simp) (by simp)
      (by rw [upd_diff _ _ (Ne.symm hpc), upd_same]) (fun d hd => ?_) (fun d hd => ?_),
      Rel.fin (o := o) _ hcr (by rw [hp]; simp) (by rw [hp]; simp) (by simp)⟩
    · by_cases hdp : d = s.par c
      · subst hdp; rw [upd_same, if_pos hw]
      · rw [upd_diff _ _ hdp, upd_diff _ _ hd, if_neg]
        intro hon
        exact hdp (i.par d c (i.on d c hon).1).1.symm
    · rw [upd_diff _ _ (by omega)]; exact hnew d hd

theorem TI.go (i : TI asked s ph) {c : Nat} (a : Act) (hl : c < s.next) (hc : s.pos c = .idle) :
    ∃ ph', TI asked (s.act c a) ph' ∧ Rel ph ph' (s.act c a).pos := by
  have hon : ∀ r, s.pos c ≠ .on r := fun r h => by rw [hc] at h; cases h
  have hen : ∀ o, s.pos c ≠ .ended o := fun r h => by rw [hc] at h; cases h
  cases a with
  | start b =>
    have hub : ph s.next = .unborn := Classical.byContradiction fun h => absurd ((i.alive s.next).1 h) (Nat.lt_irrefl _)
    exact ⟨_, i.start hl hc, Rel.upd (by rw [hub]; simp) (by rw [hub]; simp) (by simp)⟩
  | op x =>
    simp only [St.act]
    cases hk : s.cancelled c with
    | true => exact ⟨ph, i.result hl hon hen _, Rel.refl _ _⟩
    | false =>
      refine ⟨ph, ?_, Rel.refl _ _⟩
      exact i.repos hl hon hen (q := .onOp x) (fun _ h => by cases h) (fun _ h => by cases h) (fun _ => hk)
        (fun d hd => (i.new d hd).1) (fun _ _ => rfl) (fun h => h)
  | await k => exact i.await hl hc
  | fin o => exact i.fin hl hc

theorem TI.weaken {asked' : Prop} (i : TI asked s ph) (h : asked → asked')
    (hs : asked' → s.cancelled 0 = true ∨ ∃ o, s.pos 0 = .ended o) : TI asked' s ph :=
  { i with toM := i.toM.weaken h, stop := hs }

/-- The first coroutine. -/
theorem TI.root_cases (i : TI asked s ph) : ph 0 = .runs ∨ (∃ o, ph 0 = .over o ∨ ph 0 = .taken o) ∨
    recOf 0 (ph 0) = none ∧ ph 0 ≠ .unborn := by
  have h1 := i.root
  have h2 := (i.alive 0).2 i.pos0
  revert h1 h2
  cases ph 0 <;> simp [recOf]

theorem TI.stopped (i : TI asked s ph) (h : ph 0 ≠ .runs) : s.cancelled 0 = true ∨ ∃ o, s.pos 0 = .ended o := by
  have hf := i.fits 0
  have h1 := i.root
  have h2 := (i.alive 0).2 i.pos0
  have h3 := i.orphan 0
  revert hf h1 h2 h h3
  cases ph 0 with
  | unborn => simp
  | runs => simp
  | awaited a => simp
  | orphan => intro _ _ _ _ h; exact .inl (h rfl)
  | over o => intro _ h _ _ _; exact .inr ⟨o, h⟩
  | taken o => intro _ h _ _ _; exact .inr ⟨o, h⟩
  | gone => intro _ h _ _ _; exact .inr h
  | stuck => intro _ h _ _ _; obtain ⟨e, h⟩ := h; exact .inr ⟨_, h⟩

/-- Only promises and cancellations change, and the stage of the first coroutine. -/
theorem TI.sm {asked' : Prop} {s' : St} {q : Ph} (i : TI asked s ph) (m : M asked' s' (upd ph 0 q)) (sm : Sm s s')
    (hq1 : ∀ a, q ≠ .awaited a) (hq2 : q ≠ .unborn) (hq3 : q.fits (s.pos 0))
    (hs : s'.cancelled 0 = true ∨ ∃ o, s.pos 0 = .ended o) : TI asked' s' (upd ph 0 q) := by
  have e1 : s'.pos = s.pos := by rw [sm.same]
  have e2 : s'.next = s.next := by rw [sm.same]
  have e3 : s'.par = s.par := by rw [sm.same]
  have e5 : s'.kids = s.kids := by rw [sm.same]
  have e6 : s'.aid = s.aid := by rw [sm.same]
  have e7 : s'.hist = s.hist := by rw [sm.same]
  refine { m with pos0 := ?_, alive := ?_, root := ?_, new := ?_, fits := ?_, par := ?_, own := ?_, held := ?_, on := ?_
                  awd := ?_, stop := ?_ }
  · rw [e2]; exact i.pos0
  · intro c
    rw [e2]
    by_cases e : c = 0
    · subst e; rw [upd_same]; exact ⟨fun _ => i.pos0, fun _ => hq2⟩
    · rw [upd_diff _ _ e]; exact i.alive c
  · intro a; rw [upd_same]; exact hq1 a
  · intro c hc
    rw [e2] at hc
    rw [e7, e1, e5, sm.new c hc]
    exact i.new c hc
  · intro c
    rw [e1]
    by_cases e : c = 0
    · subst e; rw [upd_same]; exact hq3
    · rw [upd_diff _ _ e]; exact i.fits c
  · rw [e5, e3, e2]; exact i.par
  · rw [e2, e3, e5]; exact i.own
  · intro p r hr
    rw [e5] at hr
    rw [e1, upd_diff _ _ (by have := (i.par p r hr).2.1; omega)]
    exact i.held p r hr
  · intro p r hp
    rw [e1] at hp
    obtain ⟨h1, h2⟩ := i.on p r hp
    rw [e5, e6, upd_diff _ _ (by have := (i.par p r h1).2.1; omega)]
    exact ⟨h1, h2⟩
  · intro r a hr
    rw [e1, e3]
    by_cases e : r = 0
    · subst e; rw [upd_same] at hr; exact absurd hr (hq1 a)
    · rw [upd_diff _ _ e] at hr; exact i.awd r a hr
  · intro _
    rw [e1]; exact hs

theorem TI.cancel (i : TI asked s ph) : TI True (s.signal 0 (.cancel 0)) ph := by
  have hnop : s.prom.step (.cancel 0) = s.prom → ph 0 ≠ .runs → TI True (s.signal 0 (.cancel 0)) ph := by
    intro e h
    have e' : s.signal 0 (.cancel 0) = s := by simp only [St.signal, e, ne_eq, not_true, if_false]
    rw [e']
    exact i.weaken (fun _ => trivial) (fun _ => i.stopped h)
  rcases i.root_cases with h | ⟨o, h⟩ | ⟨h, -⟩
  · obtain ⟨h1, h2⟩ := i.ps.cancel_runs h
    have m := (i.toM.weaken (asked' := True) fun _ => trivial).emit i.pos0 (ph' := ph) h1 (fun _ h => h) (fun _ h => .inl h)
      (.inl ⟨rfl, trivial⟩) (s.prom.step (.cancel 0))
    have e0 : s.signal 0 (.cancel 0) = St.emit { s with prom := s.prom.step (.cancel 0) } s.next 0 := by
      have : (s.prom.step (.cancel 0)).signals 0 ≠ s.prom.signals 0 := by rw [h2]; omega
      simp only [St.signal, this, ne_eq, not_false_eq_true, if_true]
    have e1 : (St.emit { s with prom := s.prom.step (.cancel 0) } s.next 0).prom = s.prom.step (.cancel 0) := by
      rw [(emit_ok s.next { s with prom := s.prom.step (.cancel 0) } 0 i.fwd i.pos0 (by dsimp only; omega)).1.same]
    have e2 : { St.emit { s with prom := s.prom.step (.cancel 0) } s.next 0 with prom := s.prom.step (.cancel 0) } =
        s.signal 0 (.cancel 0) := by
      rw [e0]; conv => rhs; rw [← (show { St.emit { s with prom := s.prom.step (.cancel 0) } s.next 0 with
        prom := (St.emit { s with prom := s.prom.step (.cancel 0) } s.next 0).prom } =
        St.emit { s with prom := s.prom.step (.cancel 0) } s.next 0 from rfl), e1]
    rw [e2] at m
    have hu := upd_id ph 0 (ph 0) rfl
    rw [hu]
    refine i.sm (by rw [← hu]; exact m.1) m.2.1 i.root ((i.alive 0).2 i.pos0) (i.fits 0) (.inl ?_)
    rw [e0]; exact m.2.2
  · exact hnop (i.ps.cancel_done h) (by rcases h with h | h <;> rw [h] <;> simp)
  · exact hnop (i.ps.drop_none h).2.2 (fun e => by rw [e] at h; cases h)

theorem TI.drop (i : TI asked s ph) : TI True (s.drop 0) (upd ph 0 (dropPh (ph 0))) := by
  obtain ⟨m, sm⟩ := (i.toM.weaken (asked' := True) fun _ => trivial).drop i.pos0 i.root ((i.alive 0).2 i.pos0)
    (fun _ => trivial)
  refine i.sm m sm ?_ ?_ (TI.dropPh_fits (i.fits 0)) ?_
  · intro a h; exact i.root a (TI.dropPh_awaited h)
  · have := (i.alive 0).2 i.pos0
    revert this; cases ph 0 <;> simp [dropPh]
  · by_cases h : ph 0 = .runs
    · left
      apply m.orphan
      rw [upd_same, h]; rfl
    · rcases i.stopped h with h | h
      · exact .inl (sm.mono 0 h)
      · exact .inr h

theorem TI.step (i : TI asked s ph) (e : Ev) :
    ∃ ph', TI (asked ∨ e = .cancel ∨ e = .drop) (s.step N e) ph' ∧ Rel ph ph' (s.step N e).pos := by
  have hw : ∀ {s : St} {ph : Nat → Ph}, TI asked s ph → (e ≠ .cancel ∧ e ≠ .drop) →
      TI (asked ∨ e = .cancel ∨ e = .drop) s ph := fun i h =>
    i.weaken .inl (fun h' => i.stop (h'.elim id fun h' => (h'.elim (fun e => absurd e h.1) fun e => absurd e h.2)))
  have htrue : ∀ {s : St} {ph : Nat → Ph}, TI True s ph → (e = .cancel ∨ e = .drop) →
      TI (asked ∨ e = .cancel ∨ e = .drop) s ph := fun i h => i.weaken (fun _ => .inr h) (fun _ => i.stop trivial)
  cases e with
  | go c =>
    simp only [St.step]
    split
    · rename_i h
      obtain ⟨ph', h1, h2⟩ := i.go (N.act (s.arg c) (s.hist c)) h.1 h.2
      exact ⟨ph', hw h1 (by simp), h2⟩
    · exact ⟨ph, hw i (by simp), Rel.refl _ _⟩
  | complete c stop =>
    simp only [St.step]
    split
    · rename_i x hx
      have hl : c < s.next := by
        apply Classical.byContradiction
        intro h
        rw [(i.new c (by omega)).2.1] at hx; cases hx
      refine ⟨ph, hw ?_ (by simp), Rel.refl _ _⟩
      exact i.repos hl (fun r h => by rw [hx] at h; cases h) (fun o h => by rw [hx] at h; cases h) (q := .idle)
        (fun _ h => by cases h) (fun _ h => by cases h) (fun ⟨_, h⟩ => by cases h)
        (fun d hd => (upd_diff s.hist _ (by omega : d ≠ c)).trans (i.new d hd).1) (fun d hd => upd_diff _ _ hd)
        (fun h => by rw [upd_same] at h; cases h)
    · exact ⟨ph, hw i (by simp), Rel.refl _ _⟩
  | cancel => exact ⟨ph, htrue i.cancel (.inl rfl), Rel.refl _ _⟩
  | drop =>
    refine ⟨_, htrue i.drop (.inr rfl), ?_⟩
    have : upd ph 0 (dropPh (ph 0)) = dropped ph [0] := by
      funext c
      by_cases e : c = 0
      · subst e; rw [upd_same]; simp [dropped]
      · rw [upd_diff _ _ e]; simp [dropped, e]
    rw [this]
    exact Rel.drop _

theorem TI.init (a : Nat) : TI False (St.init a) (upd (fun _ => .unborn) 0 .runs) := by
  have hb : PS ({} : Prom.St) 0 (fun _ => .unborn) :=
    ⟨fun _ => rfl, fun _ => rfl, fun _ _ => rfl, fun _ _ h => (by cases h), fun _ => (by simp), rfl, rfl, fun _ => rfl⟩
  have hps := (hb.create (c := 0) rfl).1
  have hon : ∀ c r, (St.init a).pos c ≠ .on r := fun c r h => by cases h
  have hen : ∀ c o, (St.init a).pos c ≠ .ended o := fun c r h => by cases h
  refine { ps := hps, fwd := fun p q h => absurd h (hon p q), cl := fun c h => (by cases h), orphan := ?_
           why := fun c h => (by cases h), toldc := fun c h => (by cases h), pos0 := Nat.succ_pos _, alive := ?_, root := ?_
           new := fun c _ => ⟨rfl, rfl, rfl, rfl⟩, fits := ?_, par := fun p r h => (by cases h), own := ?_
           held := fun p r h => (by cases h), on := fun p r h => absurd h (hon p r), awd := ?_, stop := fun h => h.elim }
  · intro c hc
    by_cases e : c = 0
    · subst e; rw [upd_same] at hc; cases hc
    · rw [upd_diff _ _ e] at hc; cases hc
  · intro c
    show _ ↔ c < 1
    by_cases e : c = 0
    · subst e; rw [upd_same]; simp
    · rw [upd_diff _ _ e]; simp; omega
  · intro b; rw [upd_same]; simp
  · intro c
    by_cases e : c = 0
    · subst e; rw [upd_same]; exact hen 0
    · rw [upd_diff _ _ e]; rfl
  · intro r h0 hr
    have : r < 1 := hr
    omega
  · intro r b hr
    by_cases e : r = 0
    · subst e; rw [upd_same] at hr; cases hr
    · rw [upd_diff _ _ e] at hr; cases hr

theorem run_snoc (N : Prog) (a : Nat) (es : List Ev) (e : Ev) : run N a (es ++ [e]) = (run N a es).step N e := by
  simp [run, List.foldl_append]

theorem snoc_ind {α : Type} {P : List α → Prop} (h0 : P []) (h1 : ∀ l x, P l → P (l ++ [x])) (l : List α) : P l := by
  have : ∀ l : List α, P l.reverse := by
    intro l
    induction l with
    | nil => exact h0
    | cons x l ih => rw [List.reverse_cons]; exact h1 _ _ ih
  rw [← List.reverse_reverse l]; exact this _

theorem TI.congr {asked' : Prop} (i : TI asked s ph) (h : asked ↔ asked') : TI asked' s ph := by
  rw [← propext h]; exact i

/-- The first coroutine was told to stop. -/
def Asked (es : List Ev) : Prop := .cancel ∈ es ∨ .drop ∈ es

theorem Asked.snoc (es : List Ev) (e : Ev) : Asked (es ++ [e]) ↔ Asked es ∨ e = .cancel ∨ e = .drop := by
  simp only [Asked, List.mem_append, List.mem_singleton]
  constructor
  · rintro ((h | h) | (h | h))
    · exact .inl (.inl h)
    · exact .inr (.inl h.symm)
    · exact .inl (.inr h)
    · exact .inr (.inr h.symm)
  · rintro ((h | h) | (h | h))
    · exact .inl (.inl h)
    · exact .inr (.inl h)
    · exact .inl (.inr h.symm)
    · exact .inr (.inr h.symm)

theorem TI.run (N : Prog) (a : Nat) (es : List Ev) : ∃ ph, TI (Asked es) (run N a es) ph := by
  induction es using snoc_ind with
  | h0 => exact ⟨_, (TI.init a).congr (by simp [Asked])⟩
  | h1 es e ih =>
    obtain ⟨ph, i⟩ := ih
    obtain ⟨ph', h, -⟩ := i.step (N := N) e
    rw [run_snoc]
    exact ⟨ph', h.congr (Asked.snoc es e).symm⟩

end Cobalt.Tree
