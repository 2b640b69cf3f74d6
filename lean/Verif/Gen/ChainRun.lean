import Verif.Gen.ChainInv
/-! Histories of chains, and chains at rest. -/
namespace Cobalt.Gen.Chain

open Prom (upd upd_apply)

theorem run_snoc (c : Cfg) (es : List Ev) (e : Ev) : run c (es ++ [e]) = step c (run c es) e := by
  simp [run, steps]

theorem legal_append (c : Cfg) (s : St) (a b : List Ev) : Legal c s (a ++ b) ↔ Legal c s a ∧ Legal c (steps c s a) b := by
  induction a generalizing s with
  | nil => simp [Legal, steps]
  | cons e a ih => simp only [List.cons_append, Legal, ih, and_assoc]; rfl

theorem legal_ind {c : Cfg} {P : List Ev → Prop} (h0 : P [])
    (h1 : ∀ es e, Legal c (new c) es → can c (run c es) e = true → P es → P (es ++ [e])) :
    ∀ es, Legal c (new c) es → P es := by
  have key : ∀ r : List Ev, Legal c (new c) r.reverse → P r.reverse := by
    intro r
    induction r with
    | nil => intro _; exact h0
    | cons e r ih =>
      intro hl
      rw [List.reverse_cons, legal_append] at hl
      rw [List.reverse_cons]
      exact h1 _ _ hl.1 hl.2.1 (ih hl.1)
  intro es hl
  have := key es.reverse
  rw [List.reverse_reverse] at this
  exact this hl

theorem source_snoc (es : List Ev) (e : Ev) : source (es ++ [e]) =
    if (source es).fin = none then (match e with | .src a => (source es).add a | _ => source es) else source es := by
  induction es with
  | nil =>
    cases e with
    | src a => cases a <;> rfl
    | _ => rfl
  | cons x es ih =>
    cases x with
    | src a =>
      cases a with
      | yield v =>
        by_cases hf : (source es).fin = none
        · rw [if_pos hf] at ih
          rw [if_pos (show (source (.src (.yield v) :: es)).fin = none from hf)]
          show ({ source (es ++ [e]) with vals := v :: (source (es ++ [e])).vals } : Str) = _
          rw [ih]
          cases e with
          | src b => cases b <;> rfl
          | _ => rfl
        · rw [if_neg hf] at ih
          rw [if_neg (show (source (.src (.yield v) :: es)).fin ≠ none from hf)]
          show ({ source (es ++ [e]) with vals := v :: (source (es ++ [e])).vals } : Str) = _
          rw [ih]
          rfl
      | ret v => simp [source]
      | throw y => simp [source]
    | run k => exact ih
    | go k => exact ih

theorem CI.init (c : Cfg) : ∃ p, CI c {} p (new c) := by
  refine ⟨fun k => spec (For.others (if c.lz k then [.other .initial] else [])), fun k => ?_, fun k hk => ?_, ?_⟩
  · have hli : For.LI false (spec (For.others (if c.lz k then [.other .initial] else []))) ((new c).l k) := by
      simp only [new]
      cases c.lz k with
      | true => exact For.LI.after (es := [.other .initial]) (by decide) (by decide)
      | false => exact For.LI.after (es := []) (by decide) (by decide)
    have hs : ((new c).l k).seen = [] := by
      simp only [new]; cases c.lz k <;> decide
    refine ⟨hli, ?_, ?_, ?_, fun _ => Nat.zero_le _, fun _ => rfl, fun _ => ?_, ?_, ?_, ?_, fun _ hx => ?_⟩
    · simp only [new]; cases c.lz k <;> rfl
    · simp only [new]; cases c.lz k <;> decide
    · simp only [new]; cases c.lz k <;> rfl
    · rw [hs]; exact Nat.le_refl 0
    · simp only [new]; cases c.lz k <;> decide
    · simp only [new]; cases c.lz k <;> decide
    · cases c.lz k <;> decide
    · simp only [new]; cases c.lz k <;> rfl
  · have hs : ((new c).l k).seen = [] ∧ ((new c).l k).phase = .head := by
      simp only [new]; cases c.lz k <;> decide
    refine ⟨fun _ => ?_, fun hx => ?_, fun hx => ?_⟩
    · rw [hs.1]
      cases c.lz (k + 1) <;> rfl
    · revert hx
      cases c.lz (k + 1) <;> intro hx <;> cases hx
    · rw [hs.1, hs.2] at hx
      rcases hx with hx | ⟨-, hx⟩
      · exact absurd rfl hx
      · cases hx
  · cases c.lz 0 <;> exact ⟨rfl, rfl⟩

theorem after {c : Cfg} {es : List Ev} (hl : Legal c (new c) es) : ∃ p, CI c (source es) p (run c es) := by
  refine legal_ind (P := fun es => ∃ p, CI c (source es) p (run c es)) (CI.init c) ?_ es hl
  intro es e hl hc ih
  obtain ⟨p, h⟩ := ih
  obtain ⟨p', h'⟩ := h.step hc
  refine ⟨p', ?_⟩
  rw [run_snoc, source_snoc]
  cases e with
  | src a =>
    have o := h.one 0
    have hr := Src.runs hc
    have := (o.alive hr).1
    rw [h.src.2] at this
    rw [if_pos (by simpa using this)]
    exact h'
  | run k => simp only [ite_self]; exact h'
  | go k => simp only [ite_self]; exact h'

variable {c : Cfg} {s : St} {p : Nat → Sp} {src : Str} {k : Nat}

theorem made_prefix (f : List Nat → Nat → List Nat) {a b : List Nat} (h : a <+: b) : made f a <+: made f b := by
  obtain ⟨d, rfl⟩ := h
  have key : ∀ (a p : List Nat), madeFrom f p a <+: madeFrom f p (a ++ d) := by
    intro a
    induction a with
    | nil => intro p; exact List.nil_prefix
    | cons v a ih => intro p; exact (List.prefix_append_right_inj _).2 (ih _)
  exact key a []

/-- What the model has a body yield is what the specification says. -/
theorem made_eq (f : List Nat → Nat → List Nat) (l : List Nat) :
    made f l = l.zipIdx.flatMap fun x => f (l.take x.2) x.1 := by
  have key : ∀ (b a : List Nat), madeFrom f a b = (b.zipIdx a.length).flatMap fun x => f ((a ++ b).take x.2) x.1 := by
    intro b
    induction b with
    | nil => intro a; rfl
    | cons v b ih =>
      intro a
      rw [madeFrom, ih (a ++ [v]), List.zipIdx_cons, List.flatMap_cons]
      simp
  unfold made
  simpa using key l []

theorem stage_vals (f : List Nat → Nat → List Nat) (r : List Nat → Nat) (t : Str) :
    (stage f r t).vals = made f t.vals ++ (if t.fin = some none then [r t.vals] else []) := by
  rw [made_eq]; rfl

theorem Le.stage {a b : Str} (f : List Nat → Nat → List Nat) (r : List Nat → Nat) (h : Le a b) :
    Le (stage f r a) (stage f r b) := by
  rcases h with rfl | ⟨h1, h2⟩
  · exact .inl rfl
  · refine .inr ⟨h1, ?_⟩
    have h3 : (Chain.stage f r a).vals = made f a.vals := by rw [stage_vals]; simp [h1]
    rw [h3, stage_vals]
    exact (made_prefix f h2).trans (List.prefix_append _ _)

theorem Le.trans {a b d : Str} (h : Le a b) (g : Le b d) : Le a d := by
  rcases h with rfl | ⟨h1, h2⟩
  · exact g
  · rcases g with rfl | ⟨-, g2⟩
    · exact .inr ⟨h1, h2⟩
    · exact .inr ⟨h1, h2.trans g2⟩

/-- The stream of each generator is known from that of the source. -/
theorem CI.through (h : CI c src p s) : ∀ k, k ≤ c.n → ∃ t, Is (p k) t ∧ Le t (through c k src)
  | 0, _ => ⟨src, h.src, .inl rfl⟩
  | k + 1, hk => by
    obtain ⟨t, ht, hle⟩ := h.through k (by omega)
    have L := h.link k (by omega)
    have o := h.one k
    have hs := (sees_le o.li ht o.nb).1.trans hle
    have hs' := hs.stage (c.f k) (c.r k)
    cases he : (p (k + 1)).ended with
    | false =>
      refine ⟨⟨_, none⟩, ⟨(L.going he).trans (List.append_nil _).symm, he⟩, .inr ⟨rfl, ?_⟩⟩
      refine (List.take_prefix _ _).trans ?_
      have : (made (c.f k) (s.l k).seen) <+: (stage (c.f k) (c.r k) (sees (s.l k))).vals := by
        rw [stage_vals]; exact List.prefix_append _ _
      refine this.trans ?_
      rcases hs' with hs' | hs'
      · rw [hs']; exact List.prefix_rfl
      · exact hs'.2
    | true =>
      rcases (L.over he).2 with ⟨hp, ho⟩ | ⟨x, hp, ho⟩
      · have e1 : stage (c.f k) (c.r k) (sees (s.l k)) = ⟨(made (c.f k) (s.l k).seen) ++ [c.r k (s.l k).seen], some none⟩ := by
          simp [stage, sees, hp, ending, made_eq]
        rw [e1] at hs'
        exact ⟨⟨_, some none⟩, ⟨by simpa using ho, he⟩, hs'⟩
      · have e1 : stage (c.f k) (c.r k) (sees (s.l k)) = ⟨(made (c.f k) (s.l k).seen), some (some x)⟩ := by
          simp [stage, sees, hp, ending, made_eq]
        rw [e1] at hs'
        exact ⟨⟨_, some (some x)⟩, ⟨ho, he⟩, hs'⟩

/-- At rest the body of a generator somebody waits for runs and has given all it made. -/
theorem CI.awaited (h : CI c src p s) (hq : Quiet c s) (hk : k ≤ c.n) {a : Nat} (hw : (s.l k).phase = .waiting a) :
    (s.l k).g.phase = .running ∧ (p k).outs = (s.l k).seen.map .val := by
  have o := h.one k
  obtain ⟨u, hi⟩ := o.li.inv
  have ha := o.li.waiting a hw
  have hrun : (s.l k).g.phase = .running := by
    cases hp : (s.l k).g.phase with
    | running => rfl
    | parked => have := (hi.parkA hp).1; rw [ha] at this; cases this
    | stuck => exact absurd hp (hi.stuck o.recv)
    | gone =>
      have := hi.doneA ((hi.gone o.recv).2 hp)
      rw [ha] at this; cases this
    | posted =>
      have := hq (.run k) (by simp)
      simp [can, For.St.can, Gen.St.can, hp, hk] at this
  refine ⟨hrun, ?_⟩
  obtain ⟨-, hres, -, -, hexc, -⟩ := o.li.running o.recv hrun
  have h1 := hi.outs o.recv
  have e1 : (For.Phase.waiting a).err = [] := rfl
  rw [o.li.log, hw, e1, List.append_nil, For.filter_vals] at h1
  simp only [pend, hres, o.li.buf, hexc, optVal, optErr, List.append_nil] at h1
  exact h1

theorem act_wait (hk : k ≤ c.n) (hq : Quiet c s) (hr : k = c.n ∨ (s.l (k + 1)).g.phase = .running) : act c s k = .wait := by
  have := hq (.go k) (by simp)
  apply Classical.byContradiction
  intro hx
  rcases hr with rfl | hr
  · simp [can, hx] at this
  · simp [can, hx, hr, hk] at this

/-- At rest each body that may run waits. -/
theorem CI.rest (h : CI c src p s) (hq : Quiet c s) (hk : k < c.n) (hr : (s.l (k + 1)).g.phase = .running) :
    s.sent k = (made (c.f k) (s.l k).seen).length ∧ ∃ a, (s.l k).phase = .waiting a := by
  have hw := act_wait (by omega) hq (.inr hr)
  have o := h.one k
  unfold act at hw
  rw [if_pos hk] at hw
  cases hd : (made (c.f k) (s.l k).seen).drop (s.sent k) with
  | cons v vs => rw [hd] at hw; cases hw
  | nil =>
    have hsent : s.sent k = (made (c.f k) (s.l k).seen).length := by
      have := o.le hk
      have := List.drop_eq_nil_iff.1 hd
      omega
    refine ⟨hsent, ?_⟩
    rw [hd] at hw
    simp only [hk, if_true] at hw
    obtain ⟨t, ht⟩ := h.str k (by omega)
    have hp := (sees_le o.li ht o.nb).2
    cases hx : (s.l k).phase with
    | waiting a => exact ⟨a, rfl⟩
    | head => rw [hx] at hw; cases hw
    | finished => rw [hx] at hw; cases hw
    | thrown e => rw [hx] at hw; cases hw
    | broken => rw [hx] at hp; exact hp.elim
    | destroyed => rw [hx] at hp; exact hp.elim

/-- At rest, if the last loop waits all do. -/
theorem CI.all_wait (h : CI c src p s) (hq : Quiet c s) (hn : ∃ a, (s.l c.n).phase = .waiting a) :
    ∀ d, d ≤ c.n → ∃ a, (s.l (c.n - d)).phase = .waiting a
  | 0, _ => hn
  | d + 1, hd => by
    obtain ⟨a, ha⟩ := h.all_wait hq hn d (by omega)
    have hr := (h.awaited hq (by omega) ha).1
    have e : c.n - d = c.n - (d + 1) + 1 := by omega
    rw [e] at hr
    exact (h.rest hq (by omega) hr).2

theorem CI.exact (h : CI c src p s) (hq : Quiet c s) : sees (s.l c.n) = Chain.through c c.n src := by
  have o := h.one c.n
  obtain ⟨t, ht, hle⟩ := h.through c.n (Nat.le_refl _)
  obtain ⟨hs, hp⟩ := sees_le o.li ht o.nb
  have hs := hs.trans hle
  have hw := act_wait (Nat.le_refl _) hq (.inl rfl)
  cases hx : (s.l c.n).phase with
  | head => simp [act, hx] at hw
  | broken => rw [hx] at hp; exact hp.elim
  | destroyed => rw [hx] at hp; exact hp.elim
  | finished =>
    rcases hs with hs | hs
    · exact hs
    · simp [sees, hx, ending] at hs
  | thrown e =>
    cases e with
    | user x =>
      rcases hs with hs | hs
      · exact hs
      · simp [sees, hx, ending] at hs
    | _ => rw [hx] at hp; exact hp.elim
  | waiting a =>
    have hall : ∀ k, k ≤ c.n → ∃ a, (s.l k).phase = .waiting a := fun k hk => by
      have := h.all_wait hq ⟨a, hx⟩ (c.n - k) (by omega)
      rwa [show c.n - (c.n - k) = k by omega] at this
    have key : ∀ k, k ≤ c.n → Chain.through c k src = ⟨(s.l k).seen, none⟩ := by
      intro k
      induction k with
      | zero =>
        intro hk
        obtain ⟨a, ha⟩ := hall 0 hk
        obtain ⟨h1, h2⟩ := h.awaited hq hk ha
        have hal := ((h.one 0).alive h1).1
        obtain ⟨h3, h4⟩ := h.src
        rw [hal] at h4
        obtain ⟨vs, fin⟩ := src
        have hf : fin = none := by simpa using h4.symm
        subst hf
        rw [h2] at h3
        simp only [List.append_nil] at h3
        have := List.map_inj_right (f := Got.val) (by intro a b; simp) |>.1 h3
        rw [Chain.through, this]
      | succ k ih =>
        intro hk
        obtain ⟨a, ha⟩ := hall (k + 1) hk
        obtain ⟨h1, h2⟩ := h.awaited hq hk ha
        have hal := ((h.one (k + 1)).alive h1).1
        have hg := (h.link k (by omega)).going hal
        rw [(h.rest hq (by omega) h1).1, List.take_length, h2] at hg
        have := List.map_inj_right (f := Got.val) (by intro a b; simp) |>.1 hg
        rw [Chain.through, ih (by omega), this]
        simp [stage, made_eq]
    rw [key c.n (Nat.le_refl _)]
    simp [sees, hx, ending]

end Cobalt.Gen.Chain
