import Verif.Prom.Inv
namespace Cobalt.Prom

variable {p : Sp} {s : St}

theorem Inv.isNone (h : Inv p s) {r : Nat} : s.recv r = none ↔ p.holds r = .none := by
  refine ⟨h.gone r, fun hr => ?_⟩
  cases hR : s.recv r with
  | none => rfl
  | some R => have := h.fit r R hR; rw [hr] at this; exact this.elim

theorem Fit.congr {p' : Sp} {s' : St} {r : Nat} {R : Rec} {x : Holds} (h : Fit p s r R x)
    (hx : ∀ c, x = .coro c → p'.ended c = p.ended c ∧ (p.ended c = none → s'.frame c = s.frame c)) :
    Fit p' s' r R x := by
  cases x <;> simp only [Fit] at h ⊢ <;> try exact h
  rename_i c
  obtain ⟨h1, h2⟩ := hx c rfl
  rw [h1]
  refine ⟨h.1, ?_⟩
  have h3 := h.2
  cases he : p.ended c with
  | none => rw [he] at h3; simp only at h3 ⊢; rw [h2 he]; exact h3
  | some e => rw [he] at h3; rcases e with (_ | _) | _ <;> exact h3

/-- Objects that are not awaited. -/
theorem Inv.notAwaited (h : Inv p s) {r : Nat} {R : Rec} (hR : s.recv r = some R)
    (hx : ∀ c, p.holds r = .coro c → p.ended c ≠ none) : R.awaited = none := by
  have := h.fit r R hR
  cases hh : p.holds r <;> rw [hh] at this <;> simp only [Fit] at this
  · rename_i c
    have h2 := this.2
    have h3 := hx c hh
    cases he : p.ended c with
    | none => exact absurd he h3
    | some e =>
      rw [he] at h2
      rcases e with (_ | _) | _ <;> exact h2.2.1
  all_goals first
    | exact this.2.1
    | exact this.2

/-- A coroutine that has not ended and a promise that stands for it. -/
theorem Inv.going (h : Inv p s) {r c : Nat} {R : Rec} (hR : s.recv r = some R) (hh : p.holds r = .coro c)
    (he : p.ended c = none) : R.ref = some c ∧ R.done = false ∧ R.exc = none ∧ R.taken = false ∧
      s.frame c = some { receiver := some r, stuck := false } := by
  have := h.fit r R hR
  rw [hh] at this
  simp only [Fit, he] at this
  exact ⟨this.1, this.2.1, this.2.2.1, this.2.2.2.1, this.2.2.2.2.2⟩

theorem Inv.create (h : Inv p s) {c r : Nat} (hc : s.can (.create c r) = true) :
    Inv (p.step (.create c r)) (s.step (.create c r)) := by
  unfold St.step; rw [if_neg (by simp [h.ub, hc])]
  simp only [St.can, Bool.and_eq_true, Bool.not_eq_eq_eq_not, Bool.not_true, Option.isNone_iff_eq_none] at hc
  obtain ⟨hb, hr⟩ := hc
  have hh := h.gone r hr
  have hu := h.unborn c hb
  have hf : s.frame c = none := by
    cases hf : s.frame c with
    | none => rfl
    | some f => have := (h.frame c f hf).1; rw [hb] at this; simp at this
  constructor
  · exact h.ub
  · intro x; simp only [Sp.step, upd_apply]
    have := h.gone x; grind
  · intro x R hR
    simp only [Sp.step, upd_apply] at hR ⊢
    by_cases hx : x = r
    · subst hx
      simp only [if_true, Option.some.injEq] at hR ⊢
      subst hR
      simp only [Fit, hu.1, upd_apply, if_true, and_self]
    · rw [if_neg hx] at hR ⊢
      refine (h.fit x R hR).congr fun c' hc' => ⟨rfl, fun _ => ?_⟩
      have h2 := (hu.2 x).1
      simp only [upd_apply]
      rw [if_neg (by rintro rfl; exact h2 hc')]
  · intro x f hf'
    simp only [Sp.step, upd_apply] at hf' ⊢
    have := h.frame x f
    grind
  · intro x hx
    simp only [Sp.step, upd_apply] at hx ⊢
    have := h.unborn x
    grind
  · intro x hx he
    simp only [Sp.step, upd_apply] at hx he ⊢
    by_cases hxc : x = c
    · rw [if_pos hxc]; exact ⟨_, rfl, rfl⟩
    · rw [if_neg hxc] at hx ⊢; exact h.live x hx he
  · intro x R a hR ha
    simp only [upd_apply] at hR ⊢
    have := h.awaited x R a
    grind
  · intro a w hw hg hk
    simp only [Sp.step, upd_apply] at hw ⊢
    have := h.pend a w hw hg hk
    grind
  · intro a w g hw hg
    exact (h.got a w g hw hg).mono rfl id (fun _ _ => id)
  · exact h.log
  · exact h.once
  · exact h.killed

theorem Inv.noop (h : Inv p s) {r v : Nat} (hc : s.can (.noop r v) = true) :
    Inv (p.step (.noop r v)) (s.step (.noop r v)) := by
  unfold St.step; rw [if_neg (by simp [h.ub, hc])]
  simp only [St.can, Option.isNone_iff_eq_none] at hc
  have hh := h.gone r hc
  constructor
  · exact h.ub
  · intro x; simp only [Sp.step, upd_apply]
    have := h.gone x; grind
  · intro x R hR
    simp only [Sp.step, upd_apply] at hR ⊢
    by_cases hx : x = r
    · subst hx
      simp only [if_true, Option.some.injEq] at hR ⊢
      subst hR
      simp [Fit]
    · rw [if_neg hx] at hR ⊢
      exact (h.fit x R hR).congr fun c' hc' => ⟨rfl, fun _ => rfl⟩
  · intro x f hf'
    simp only [Sp.step, upd_apply] at hf' ⊢
    have := h.frame x f
    grind
  · intro x hx
    simp only [Sp.step, upd_apply] at hx ⊢
    have := h.unborn x
    grind
  · exact h.live
  · intro x R a hR ha
    simp only [upd_apply] at hR ⊢
    have := h.awaited x R a
    grind
  · intro a w hw hg hk
    simp only [Sp.step, upd_apply] at hw ⊢
    have := h.pend a w hw hg hk
    grind
  · intro a w g hw hg
    exact (h.got a w g hw hg).mono rfl id (fun _ _ => id)
  · exact h.log
  · exact h.once
  · exact h.killed

/-- Changing only fields of a promise object that do not matter. -/
theorem Inv.setRec (h : Inv p s) {r : Nat} {R R' : Rec} (hR : s.recv r = some R) (hF : Fit p s r R' (p.holds r))
    (ha : R'.awaited = R.awaited) : Inv p { s with recv := upd s.recv r (some R') } := by
  constructor
  · exact h.ub
  · intro x; simp only [upd_apply]; have := h.gone x; grind
  · intro x X hX
    simp only [upd_apply] at hX
    by_cases hx : x = r
    · subst hx
      simp only [if_true, Option.some.injEq] at hX
      subst hX
      exact hF.congr fun _ _ => ⟨rfl, fun _ => rfl⟩
    · rw [if_neg hx] at hX
      exact (h.fit x X hX).congr fun c' hc' => ⟨rfl, fun _ => rfl⟩
  · intro x f hf
    have := h.frame x f hf
    simp only [upd_apply]
    grind
  · exact h.unborn
  · exact h.live
  · intro x X a hX hXa
    simp only [upd_apply] at hX ⊢
    have := h.awaited x X a
    have := h.awaited r R a hR
    grind
  · intro a w hw hg hk
    obtain ⟨X, c, h1, h2, h3⟩ := h.pend a w hw hg hk
    simp only [upd_apply]
    by_cases hx : w.self = r
    · rw [if_pos hx]
      rw [hx, hR] at h1
      simp only [Option.some.injEq] at h1
      exact ⟨R', c, rfl, by rw [ha, h1]; exact h2, h3⟩
    · rw [if_neg hx]; exact ⟨X, c, h1, h2, h3⟩
  · exact h.got
  · exact h.log
  · exact h.once
  · exact h.killed

theorem Fit.attached {r : Nat} {R : Rec} {x : Holds} {b : Bool} (h : Fit p s r R x) :
    Fit p s r { R with attached := b } x := by
  cases x <;> exact h

theorem Inv.attach (h : Inv p s) {r : Nat} {b : Bool} (hc : (s.recv r).isSome = true) :
    Inv p (s.setAttached r b) := by
  unfold St.setAttached
  cases hR : s.recv r with
  | none => rw [hR] at hc; simp at hc
  | some R => exact h.setRec hR (h.fit r R hR).attached rfl

theorem Inv.signals (h : Inv p s) {f : Nat → Nat} : Inv p { s with signals := f } :=
  ⟨h.ub, h.gone, fun r R hR => (h.fit r R hR).congr fun _ _ => ⟨rfl, fun _ => rfl⟩, h.frame, h.unborn, h.live, h.awaited, h.pend, h.got, h.log, h.once, h.killed⟩

theorem Inv.leaving (h : Inv p s) {f : Nat → Bool} : Inv p { s with leaving := f } :=
  ⟨h.ub, h.gone, fun r R hR => (h.fit r R hR).congr fun _ _ => ⟨rfl, fun _ => rfl⟩, h.frame, h.unborn, h.live, h.awaited, h.pend, h.got, h.log, h.once, h.killed⟩

/-- A promise object that is not done points to a frame that exists. -/
theorem Inv.refOk (h : Inv p s) {r : Nat} {R : Rec} (hR : s.recv r = some R) (hd : R.done = false) (hs : p.safe r) :
    ∃ c f, R.ref = some c ∧ s.frame c = some f ∧
      ((p.holds r = .coro c ∧ p.ended c = none ∧ f.receiver = some r) ∨ (p.holds r = .zombie c ∧ f.receiver ≠ some r)) := by
  have hf := h.fit r R hR
  cases hh : p.holds r with
  | coro c =>
    rw [hh] at hf
    simp only [Fit] at hf
    cases he : p.ended c with
    | none => rw [he] at hf; exact ⟨c, _, hf.1, hf.2.2.2.2.2, Or.inl ⟨rfl, he, rfl⟩⟩
    | some e =>
      rw [he] at hf
      rcases e with (_ | _) | _ <;> (have := hf.2.1; rw [hd] at this; simp at this)
  | zombie c =>
    rw [hh] at hf
    simp only [Fit] at hf
    have hb : s.born c = true := by
      cases hb : s.born c with
      | false => exact absurd hh ((h.unborn c hb).2 r).2
      | true => rfl
    obtain ⟨f, h1, h2⟩ := h.live c hb (hs c hh)
    refine ⟨c, f, hf.2.2.2, h1, Or.inr ⟨rfl, fun hx => ?_⟩⟩
    have := ((h.frame c f h1).2.2.2 r hx).1
    rw [hh] at this; simp at this
  | none => rw [hh] at hf; exact hf.elim
  | ready v => rw [hh] at hf; have := hf.1; rw [hd] at this; simp at this
  | moved => rw [hh] at hf; have := hf.1; rw [hd] at this; simp at this
  | husk => rw [hh] at hf; have := hf.1; rw [hd] at this; simp at this

theorem Inv.cancel (h : Inv p s) {r : Nat} (hc : (s.recv r).isSome = true) (hs : p.safe r) : Inv p (s.cancel r) := by
  unfold St.cancel
  cases hR : s.recv r with
  | none => rw [hR] at hc; simp at hc
  | some R =>
    simp only
    split
    · exact h
    · rename_i hd
      obtain ⟨c, f, h1, h2, -⟩ := h.refOk hR (by simpa using hd) hs
      simp only [h1, h2]
      split
      · exact h.signals
      · exact h

theorem Inv.leave (h : Inv p s) {r : Nat} (hc : (s.recv r).isSome = true) (hs : p.safe r) : Inv p (s.leave r) := by
  unfold St.leave
  cases hR : s.recv r with
  | none => rw [hR] at hc; simp at hc
  | some R =>
    simp only
    split
    · exact h.leaving.cancel (s := { s with leaving := _ }) (by simp [hR]) hs
    · exact h.leaving

/-- An await ends; the promise is not awaited any more. -/
theorem Inv.endAwait (h : Inv p s) {r a : Nat} {R : Rec} {x : Option Err} {g : Got} (hR : s.recv r = some R)
    (ha : R.awaited = some a) (hg : Explains p a g) :
    Inv p { s with
      recv := upd s.recv r (some { R with awaited := none })
      aw := upd s.aw a (some { self := r, ex := x, got := some g })
      log := (a, g) :: s.log } := by
  obtain ⟨hw, hk⟩ := h.awaited r R a hR ha
  have hnl : ∀ g', (a, g') ∉ s.log := by
    intro g' hm
    obtain ⟨w, h1, h2⟩ := (h.log a g').1 hm
    rw [hw] at h1; simp at h1; subst h1; simp at h2
  constructor
  · exact h.ub
  · intro y; simp only [upd_apply]; have := h.gone y; grind
  · intro y X hX
    simp only [upd_apply] at hX
    by_cases hy : y = r
    · subst hy
      simp only [if_true, Option.some.injEq] at hX
      subst hX
      have := h.fit y R hR
      cases hh : p.holds y <;> rw [hh] at this <;> simp only [Fit] at this ⊢ <;> grind
    · rw [if_neg hy] at hX
      exact (h.fit y X hX).congr fun c' hc' => ⟨rfl, fun _ => rfl⟩
  · intro y f hf
    have := h.frame y f hf
    simp only [upd_apply]
    grind
  · exact h.unborn
  · exact h.live
  · intro y X b hX hXa
    simp only [upd_apply] at hX ⊢
    have := h.awaited y X b
    grind
  · intro b w hw' hg' hk'
    simp only [upd_apply] at hw' ⊢
    have := h.pend b w
    have := h.awaited r R
    grind
  · intro b w g' hw' hg'
    simp only [upd_apply] at hw'
    by_cases hb : b = a
    · subst hb
      simp only [if_true, Option.some.injEq] at hw'
      subst hw'
      simp only [Option.some.injEq] at hg'
      subst hg'; exact hg
    · rw [if_neg hb] at hw'
      exact h.got b w g' hw' hg'
  · intro b g'
    simp only [List.mem_cons, Prod.mk.injEq, upd_apply]
    by_cases hb : b = a
    · subst hb
      have := hnl g'
      simp only [true_and, if_true, Option.some.injEq, exists_eq_left']
      grind
    · simp only [hb, false_and, false_or, if_false]
      exact h.log b g'
  · simp only [List.map_cons, List.nodup_cons]
    refine ⟨?_, h.once⟩
    simp only [List.mem_map, not_exists, not_and, Prod.forall]
    rintro b g' hm rfl
    exact hnl g' hm
  · intro b hb
    simp only [upd_apply] at hb ⊢
    have := h.killed b hb
    grind

/-- An await that ends at once. -/
theorem Inv.quickAwait (h : Inv p s) {r a : Nat} {x : Option Err} {g : Got}
    (hw : s.aw a = none) {t : Holds} (hg : Explains { p with target := upd p.target a t } a g) :
    Inv { p with target := upd p.target a t } { s with
      aw := upd s.aw a (some { self := r, ex := x, got := some g })
      log := (a, g) :: s.log } := by
  have hnl : ∀ g', (a, g') ∉ s.log := by
    intro g' hm
    obtain ⟨w, h1, h2⟩ := (h.log a g').1 hm
    rw [hw] at h1; simp at h1
  constructor
  · exact h.ub
  · exact h.gone
  · exact fun y X hX => (h.fit y X hX).congr fun c' hc' => ⟨rfl, fun _ => rfl⟩
  · exact h.frame
  · exact h.unborn
  · exact h.live
  · intro y X b hX hXa
    simp only [upd_apply] at hX ⊢
    have := h.awaited y X b
    grind
  · intro b w hw' hg' hk'
    simp only [upd_apply] at hw' ⊢
    have := h.pend b w
    grind
  · intro b w g' hw' hg'
    simp only [upd_apply] at hw'
    by_cases hb : b = a
    · subst hb
      simp only [if_true, Option.some.injEq] at hw'
      subst hw'
      simp only [Option.some.injEq] at hg'
      subst hg'; exact hg
    · rw [if_neg hb] at hw'
      refine (h.got b w g' hw' hg').mono ?_ id (fun _ _ => id)
      simp [hb]
  · intro b g'
    simp only [List.mem_cons, Prod.mk.injEq, upd_apply]
    by_cases hb : b = a
    · subst hb
      have := hnl g'
      simp only [true_and, if_true, Option.some.injEq, exists_eq_left']
      grind
    · simp only [hb, false_and, false_or, if_false]
      exact h.log b g'
  · simp only [List.map_cons, List.nodup_cons]
    refine ⟨?_, h.once⟩
    simp only [List.mem_map, not_exists, not_and, Prod.forall]
    rintro b g' hm rfl
    exact hnl g' hm
  · intro b hb
    simp only [upd_apply] at hb ⊢
    have := h.killed b hb
    grind

/-- Taking the result of a promise that has one. -/
theorem Inv.result (h : Inv p s) {r : Nat} {R : Rec} (hR : s.recv r = some R) (hd : R.done = true)
    (hh : p.holds r ≠ .husk) : ∃ R' g, St.getResult R = some (R', g) ∧ R'.awaited = R.awaited ∧
      Fit p s r R' (p.holds r) ∧
      match p.holds r with
      | .coro c => ∃ e, p.ended c = some e ∧ fits e g
      | .ready v => g = .val v ∨ g = .moved
      | .moved => g = .err .movedFrom
      | _ => False := by
  have hf := h.fit r R hR
  cases hx : p.holds r with
  | none => rw [hx] at hf; exact hf.elim
  | zombie c => rw [hx] at hf; have := hf.1; rw [hd] at this; simp at this
  | husk => exact absurd hx hh
  | moved =>
    rw [hx] at hf
    obtain ⟨-, h2, h3⟩ := hf
    refine ⟨{ R with taken := true }, .err .movedFrom, ?_, rfl, ⟨hd, h2, h3⟩, rfl⟩
    simp [St.getResult, h3, hd]
  | ready v =>
    rw [hx] at hf
    obtain ⟨-, h2, h3, h4, h5⟩ := hf
    cases ht : R.taken
    · refine ⟨{ R with taken := true, result := some none }, .val v, ?_, rfl, ⟨hd, h2, h3, h4, by simp⟩, Or.inl rfl⟩
      simp [St.getResult, h3, h5, ht]
    · refine ⟨{ R with taken := true }, .moved, ?_, rfl, ⟨hd, h2, h3, h4, by rw [h5, ht]⟩, Or.inr rfl⟩
      simp [St.getResult, h3, h5, ht]
  | coro c =>
    rw [hx] at hf
    simp only [Fit] at hf ⊢
    obtain ⟨h0, hf⟩ := hf
    cases he : p.ended c with
    | none => rw [he] at hf; have := hf.1; rw [hd] at this; simp at this
    | some e =>
      rw [he] at hf
      rcases e with (v | e) | _
      · obtain ⟨-, h2, h3, h5⟩ := hf
        cases ht : R.taken
        · refine ⟨{ R with taken := true, result := some none }, .val v, ?_, rfl, ⟨h0, hd, h2, h3, by simp⟩,
            _, rfl, Or.inl rfl⟩
          simp [St.getResult, h3, h5, ht]
        · refine ⟨{ R with taken := true }, .moved, ?_, rfl, ⟨h0, hd, h2, h3, by rw [h5, ht]⟩, _, rfl, Or.inr rfl⟩
          simp [St.getResult, h3, h5, ht]
      · obtain ⟨-, h2, h3⟩ := hf
        refine ⟨{ R with taken := true }, .err (.user e), ?_, rfl, ⟨h0, hd, h2, h3⟩, _, rfl, rfl⟩
        simp [St.getResult, h3, hd]
      · obtain ⟨-, h2, h3⟩ := hf
        refine ⟨{ R with taken := true }, .err .unexpected, ?_, rfl, ⟨h0, hd, h2, h3⟩, _, rfl, rfl⟩
        simp [St.getResult, h3, hd]

theorem Inv.get (h : Inv p s) {r : Nat} (hc : s.can (.get r) = true) (ht : Tidy p s (.get r)) :
    Inv p (s.step (.get r)) := by
  unfold St.step; rw [if_neg (by simp [h.ub, hc])]
  simp only [St.can] at hc
  obtain ⟨h1, h2, h3⟩ := ht
  cases hR : s.recv r with
  | none => rw [hR] at hc; simp at hc
  | some R =>
    have hd : R.done = true := by
      cases hd : R.done with
      | true => rfl
      | false =>
        obtain ⟨c, f, -, -, h4 | h4⟩ := h.refOk hR hd (fun c hz => absurd hz (h2 c))
        · exact absurd h4.2.1 (h3 c h4.1)
        · exact absurd h4.1 (h2 c)
    obtain ⟨R', g, h4, h5, h6, -⟩ := h.result hR hd h1
    simp only [hR, hd, if_true, h4]
    exact h.setRec hR h6 h5

theorem Inv.await (h : Inv p s) {a r : Nat} (hc : s.can (.await a r) = true) (ht : Tidy p s (.await a r)) :
    Inv (p.step (.await a r)) (s.step (.await a r)) := by
  unfold St.step; rw [if_neg (by simp [h.ub, hc])]
  simp only [St.can, Bool.and_eq_true, Option.isNone_iff_eq_none] at hc
  obtain ⟨hw, hc⟩ := hc
  obtain ⟨h1, h2⟩ := ht
  cases hR : s.recv r with
  | none => rw [hR] at hc; simp at hc
  | some R =>
    simp only [St.await, hR, Sp.step]
    by_cases hd : R.done = true
    · rw [if_pos hd]
      obtain ⟨R', g, h4, h5, h6, h7⟩ := h.result hR hd h1
      simp only [St.resumeAw, upd_apply, if_true, hR, h4]
      have := (h.setRec hR h6 h5).quickAwait (r := r) (a := a) (x := none) (g := g) (t := p.holds r) hw (by
          right
          simp only [upd_apply, if_true]
          cases hx : p.holds r <;> rw [hx] at h7 <;> simp only at h7 ⊢ <;> first | exact h7 | exact Or.inr h7)
      refine cast ?_ this
      congr 2
      funext x; simp only [upd_apply]; split <;> rfl
    · rw [if_neg hd]
      obtain ⟨c, f, h3, h4, h5 | h5⟩ := h.refOk hR (by simpa using hd) (fun c hz => absurd hz (h2 c))
      · by_cases hA : R.awaited = none
        · rw [if_neg (by simp [hA])]
          constructor
          · exact h.ub
          · intro y; simp only [upd_apply]; have := h.gone y; grind
          · intro y X hX
            simp only [upd_apply] at hX
            by_cases hy : y = r
            · subst hy
              simp only [if_true, Option.some.injEq] at hX
              subst hX
              have := h.fit y R hR
              rw [h5.1] at this ⊢
              simp only [Fit, h5.2.1] at this ⊢
              exact this
            · rw [if_neg hy] at hX
              exact (h.fit y X hX).congr fun c' hc' => ⟨rfl, fun _ => rfl⟩
          · intro y f hf
            have := h.frame y f hf
            simp only [upd_apply]
            grind
          · exact h.unborn
          · exact h.live
          · intro y X b hX hXa
            simp only [upd_apply] at hX ⊢
            have := h.awaited y X b
            have hk : a ∉ s.killed := fun hk => by
              obtain ⟨w, h6, -⟩ := h.killed a hk; rw [hw] at h6; simp at h6
            grind
          · intro b w hw' hg' hk'
            simp only [upd_apply] at hw' ⊢
            have := h.pend b w
            grind
          · intro b w g' hw' hg'
            simp only [upd_apply] at hw'
            by_cases hb : b = a
            · subst hb
              simp only [if_true, Option.some.injEq] at hw'
              subst hw'
              simp at hg'
            · rw [if_neg hb] at hw'
              refine (h.got b w g' hw' hg').mono ?_ id (fun _ _ => id)
              simp [hb]
          · intro b g'
            simp only [upd_apply]
            have := h.log b g'
            grind
          · exact h.once
          · intro b hb
            simp only [upd_apply] at hb ⊢
            have := h.killed b hb
            grind
        · rw [if_pos hA]
          simp only [St.resumeAw, upd_apply, if_true]
          have := h.quickAwait (r := r) (a := a) (x := some .alreadyAwaited) (g := .err .alreadyAwaited) (t := p.holds r)
            hw (by right; simp only [upd_apply, if_true, h5.1]; exact Or.inl trivial)
          refine cast ?_ this
          congr 2
          funext x; simp only [upd_apply]; split <;> rfl
      · exact absurd h5.1 (h2 c)

theorem Inv.interrupt (h : Inv p s) {a : Nat} (hc : s.can (.interrupt a) = true) (ht : Tidy p s (.interrupt a)) :
    Inv (p.step (.interrupt a)) (s.step (.interrupt a)) := by
  unfold St.step; rw [if_neg (by simp [h.ub, hc])]
  simp only [St.can] at hc
  cases hw : s.aw a with
  | none => rw [hw] at hc; simp at hc
  | some w =>
    rw [hw] at hc
    simp only [Bool.and_eq_true, Bool.not_eq_eq_eq_not, Bool.not_true, List.contains_eq_mem, decide_eq_false_iff_not] at hc
    cases hR : s.recv w.self with
    | none => rw [hR] at hc; simp at hc
    | some R =>
      simp only [St.interrupt, hw, hR, Sp.step]
      -- the history knows that it was interrupted
      have h0 : Inv { p with asked := upd p.asked a true } s := by
        refine ⟨h.ub, h.gone, fun y X hX => (h.fit y X hX).congr fun c' hc' => ⟨rfl, fun _ => rfl⟩, h.frame, h.unborn,
          h.live, h.awaited, h.pend, fun b w' g hw' hg => ?_, h.log, h.once, h.killed⟩
        refine (h.got b w' g hw' hg).mono rfl (fun hb => ?_) (fun _ _ => id)
        simp only [upd_apply]; split
        · rfl
        · exact hb
      cases hA : R.awaited with
      | none =>
        -- nobody is waiting: only `ex` changes, and the await has ended
        have hgot : w.got ≠ none := fun hg => by
          obtain ⟨X, c, h1, h2, -⟩ := h.pend a w hw hg hc.2
          rw [hR] at h1; simp only [Option.some.injEq] at h1; subst h1; rw [hA] at h2; simp at h2
        simp only
        constructor
        · exact h0.ub
        · exact h0.gone
        · exact fun y X hX => (h0.fit y X hX).congr fun c' hc' => ⟨rfl, fun _ => rfl⟩
        · exact h0.frame
        · exact h0.unborn
        · exact h0.live
        · intro y X b hX hXa
          simp only [upd_apply]
          have := h0.awaited y X b hX hXa
          grind
        · intro b w' hw' hg' hk'
          simp only [upd_apply] at hw' ⊢
          have := h0.pend b w'
          grind
        · intro b w' g' hw' hg'
          simp only [upd_apply] at hw'
          have := h0.got b w' g'
          have := h0.got a w g'
          grind
        · intro b g'
          simp only [upd_apply]
          have := h0.log b g'
          grind
        · exact h0.once
        · intro b hb
          simp only [upd_apply] at hb ⊢
          have := h0.killed b hb
          grind
      | some b =>
        have hb := ht w R b hw hR hA
        subst hb
        obtain ⟨h1, h2⟩ := h.awaited w.self R b hR hA
        rw [hw] at h1
        simp only [Option.some.injEq] at h1
        simp only [St.resumeAw, upd_apply, if_true]
        have := h0.endAwait (x := some .detached) (g := .err .detached) hR hA (Or.inl ⟨rfl, by simp⟩)
        refine cast ?_ this
        congr 2
        funext x; simp only [upd_apply]; split
        · rfl
        · rfl

/-- The coroutine `c` is over: what changes for the promises that do not stand for it. -/
theorem Inv.fin_none (h : Inv p s) {c : Nat} {f : Frame} (hf : s.frame c = some f) (hs : f.stuck = false)
    (hr : f.receiver = none) (e : End) {f' : Option Frame} (hf' : ∀ g, f' = some g → g.stuck = true ∧ g.receiver = none) :
    Inv { p with ended := upd p.ended c (some e) } { s with frame := upd s.frame c f' } := by
  have he := (h.frame c f hf).2.2.1 hs
  have hno : ∀ r, p.holds r ≠ .coro c := by
    intro r hh
    cases hR : s.recv r with
    | none => rw [h.gone r hR] at hh; simp at hh
    | some R =>
      have := (h.going hR hh he).2.2.2.2
      rw [hf] at this; simp only [Option.some.injEq] at this; subst this; simp at hr
  constructor
  · exact h.ub
  · exact h.gone
  · intro y X hX
    refine (h.fit y X hX).congr fun c' hc' => ?_
    have : c' ≠ c := by rintro rfl; exact hno y hc'
    simp [this]
  · intro y g hg
    simp only [upd_apply] at hg ⊢
    have h1 := h.frame y g
    have h2 := h.frame c f hf
    have h3 := hf' g
    grind
  · intro y hy
    have := h.unborn y hy
    have h2 := h.frame c f hf
    simp only [upd_apply]
    grind
  · intro y hy he'
    simp only [upd_apply] at he' ⊢
    have := h.live y hy
    grind
  · exact h.awaited
  · intro b w hw hg hk
    obtain ⟨R, c', h1, h2, h3, h4, h5⟩ := h.pend b w hw hg hk
    refine ⟨R, c', h1, h2, h3, ?_, h5⟩
    simp only [upd_apply]
    rw [if_neg (by rintro rfl; exact hno _ h3)]
    exact h4
  · intro b w g hw hg
    refine (h.got b w g hw hg).mono rfl id fun c' e' hc' => ?_
    simp only [upd_apply]
    rw [if_neg (by rintro rfl; rw [he] at hc'; simp at hc')]
    exact hc'
  · exact h.log
  · exact h.once
  · exact h.killed

/-- The coroutine `c` is over; its promise is at `r`. If somebody awaits it, the await
ends or the awaiting coroutine is destroyed (`x`). -/
theorem Inv.fin_some (h : Inv p s) {c r : Nat} {R R' : Rec} (hf : s.frame c = some { receiver := some r, stuck := false })
    (hR : s.recv r = some R) (e : End) (hF : ∀ s', Fit { p with ended := upd p.ended c (some e) } s' r R' (.coro c))
    (x : Option Got) (hx : ∀ g, x = some g → fits e g) :
    Inv { p with ended := upd p.ended c (some e) } { s with
      frame := upd s.frame c none
      recv := upd s.recv r (some R')
      aw := match (generalizing := false) R.awaited, x with | some a, some g => upd s.aw a (some { self := r, got := some g }) | _, _ => s.aw
      log := match (generalizing := false) R.awaited, x with | some a, some g => (a, g) :: s.log | _, _ => s.log
      killed := match (generalizing := false) R.awaited, x with | some a, none => a :: s.killed | _, _ => s.killed } := by
  have h0 := h.frame c _ hf
  have he : p.ended c = none := h0.2.2.1 rfl
  have hh : p.holds r = .coro c := (h0.2.2.2 r rfl).1
  have huniq : ∀ y, p.holds y = .coro c → y = r := by
    intro y hy
    cases hY : s.recv y with
    | none => rw [h.gone y hY] at hy; simp at hy
    | some Y =>
      have := (h.going hY hy he).2.2.2.2
      rw [hf] at this; simp only [Option.some.injEq, Frame.mk.injEq, and_true] at this; exact this.symm
  have hmono : ∀ c' e', p.ended c' = some e' → (upd p.ended c (some e)) c' = some e' := by
    intro c' e' hc'
    simp only [upd_apply]
    rw [if_neg (by rintro rfl; rw [he] at hc'; simp at hc')]
    exact hc'
  have hR'a : R'.awaited = none := by
    have := (hF s).2
    simp only [upd_apply, if_true] at this
    rcases e with (_ | _) | _ <;> exact this.2.1
  -- the fields that do not depend on the awaiting coroutine
  have hgone : ∀ y, (upd s.recv r (some R')) y = none → p.holds y = .none := by
    intro y; simp only [upd_apply]; have := h.gone y; grind
  have hfit : ∀ (s' : St), s'.frame = upd s.frame c none → ∀ y X, (upd s.recv r (some R')) y = some X →
      Fit { p with ended := upd p.ended c (some e) } s' y X (p.holds y) := by
    intro s' hs' y X hX
    simp only [upd_apply] at hX
    by_cases hy : y = r
    · subst hy
      simp only [if_true, Option.some.injEq] at hX
      subst hX
      rw [hh]; exact hF s'
    · rw [if_neg hy] at hX
      refine (h.fit y X hX).congr fun c' hc' => ?_
      have : c' ≠ c := by rintro rfl; exact hy (huniq y hc')
      simp [hs', this]
  have hframe : ∀ y g, (upd s.frame c none) y = some g → s.born y = true ∧ (g.stuck = true → g.receiver = none) ∧
      (g.stuck = false → (upd p.ended c (some e)) y = none) ∧
      ∀ z, g.receiver = some z → p.holds z = .coro y ∧ ((upd s.recv r (some R')) z).isSome = true := by
    intro y g hg
    simp only [upd_apply] at hg ⊢
    have := h.frame y g
    grind
  have hunborn : ∀ y, s.born y = false → (upd p.ended c (some e)) y = none ∧
      ∀ z, p.holds z ≠ .coro y ∧ p.holds z ≠ .zombie y := by
    intro y hy
    have := h.unborn y hy
    simp only [upd_apply]
    grind
  have hlive : ∀ y, s.born y = true → (upd p.ended c (some e)) y = none → ∃ f, (upd s.frame c none) y = some f ∧ f.stuck = false := by
    intro y hy he'
    simp only [upd_apply] at he' ⊢
    have := h.live y hy
    grind
  have hgot : ∀ b w g, s.aw b = some w → w.got = some g → Explains { p with ended := upd p.ended c (some e) } b g :=
    fun b w g hw hg => (h.got b w g hw hg).mono rfl id hmono
  -- awaits of other promises
  have hpend : ∀ b w, s.aw b = some w → w.got = none → b ∉ s.killed → R.awaited ≠ some b →
      ∃ X c', (upd s.recv r (some R')) w.self = some X ∧ X.awaited = some b ∧ p.holds w.self = .coro c' ∧
        (upd p.ended c (some e)) c' = none ∧ p.target b = .coro c' := by
    intro b w hw hg hk hne
    obtain ⟨X, c', h1, h2, h3, h4, h5⟩ := h.pend b w hw hg hk
    have hwr : w.self ≠ r := by
      intro hwr
      rw [hwr, hR] at h1; simp only [Option.some.injEq] at h1; subst h1
      exact hne h2
    refine ⟨X, c', by simp [hwr, h1], h2, h3, ?_, h5⟩
    simp only [upd_apply]
    rw [if_neg (by rintro rfl; exact hwr (huniq _ h3))]
    exact h4
  cases hA : R.awaited with
  | none =>
    simp only
    refine ⟨h.ub, hgone, hfit _ rfl, hframe, hunborn, hlive, ?_, ?_, hgot, h.log, h.once, h.killed⟩
    · intro y X b hX hXa
      simp only [upd_apply] at hX ⊢
      have := h.awaited y X b
      grind
    · intro b w hw hg hk
      exact hpend b w hw hg hk (by rw [hA]; simp)
  | some a =>
    obtain ⟨hwa, hka⟩ := h.awaited r R a hR hA
    obtain ⟨X, c', h1, h2, h3, h4, h5⟩ := h.pend a _ hwa rfl hka
    have hta : p.target a = .coro c := by
      rw [hh] at h3; simp only [Holds.coro.injEq] at h3; rw [h5, h3]
    have hother : ∀ y Y, (upd s.recv r (some R')) y = some Y → ∀ b, Y.awaited = some b → b ≠ a ∧ s.recv y = some Y := by
      intro y Y hY b hb
      simp only [upd_apply] at hY
      by_cases hy : y = r
      · rw [if_pos hy] at hY; simp only [Option.some.injEq] at hY; subst hY; rw [hR'a] at hb; simp at hb
      · rw [if_neg hy] at hY
        refine ⟨?_, hY⟩
        rintro rfl
        have := (h.awaited y Y b hY hb).1
        rw [hwa] at this; simp only [Option.some.injEq, Aw.mk.injEq, and_true] at this
        exact hy this.symm
    have hnl : ∀ g', (a, g') ∉ s.log := by
      intro g' hm
      obtain ⟨w, h6, h7⟩ := (h.log a g').1 hm
      rw [hwa] at h6; simp at h6; subst h6; simp at h7
    cases x with
    | none =>
      simp only
      refine ⟨h.ub, hgone, hfit _ rfl, hframe, hunborn, hlive, ?_, ?_, hgot, h.log, h.once, ?_⟩
      · intro y Y b hY hb
        obtain ⟨h6, h7⟩ := hother y Y hY b hb
        have := h.awaited y Y b h7 hb
        simp only [List.mem_cons]
        grind
      · intro b w hw hg hk
        simp only [List.mem_cons, not_or] at hk
        exact hpend b w hw hg hk.2 (by rw [hA]; simp only [ne_eq, Option.some.injEq]; exact fun h => hk.1 h.symm)
      · intro b hb
        simp only [List.mem_cons] at hb
        rcases hb with rfl | hb
        · exact ⟨_, hwa, rfl⟩
        · exact h.killed b hb
    | some g =>
      simp only
      refine ⟨h.ub, hgone, hfit _ rfl, hframe, hunborn, hlive, ?_, ?_, ?_, ?_, ?_, ?_⟩
      · intro y Y b hY hb
        obtain ⟨h6, h7⟩ := hother y Y hY b hb
        have := h.awaited y Y b h7 hb
        simp only [upd_apply]
        grind
      · intro b w hw hg hk
        simp only [upd_apply] at hw
        by_cases hb : b = a
        · rw [if_pos hb] at hw; simp only [Option.some.injEq] at hw; subst hw; simp at hg
        · rw [if_neg hb] at hw
          exact hpend b w hw hg hk (by rw [hA]; simp only [ne_eq, Option.some.injEq]; exact fun h => hb h.symm)
      · intro b w g' hw hg
        simp only [upd_apply] at hw
        by_cases hb : b = a
        · subst hb
          simp only [if_true, Option.some.injEq] at hw
          subst hw
          simp only [Option.some.injEq] at hg
          subst hg
          right
          simp only [hta]
          exact Or.inr ⟨e, by simp, hx g rfl⟩
        · rw [if_neg hb] at hw
          exact hgot b w g' hw hg
      · intro b g'
        simp only [List.mem_cons, Prod.mk.injEq, upd_apply]
        by_cases hb : b = a
        · subst hb
          have := hnl g'
          simp only [true_and, if_true, Option.some.injEq, exists_eq_left']
          grind
        · simp only [hb, false_and, false_or, if_false]
          exact h.log b g'
      · simp only [List.map_cons, List.nodup_cons]
        refine ⟨?_, h.once⟩
        simp only [List.mem_map, not_exists, not_and, Prod.forall]
        rintro b g' hm rfl
        exact hnl g' hm
      · intro b hb
        simp only [upd_apply] at hb ⊢
        have := h.killed b hb
        grind

theorem Inv.finish (h : Inv p s) {c : Nat} {o : Out} (hc : s.can (.finish c o) = true) :
    Inv (p.step (.finish c o)) (s.step (.finish c o)) := by
  unfold St.step; rw [if_neg (by simp [h.ub, hc])]
  simp only [St.can] at hc
  cases hf : s.frame c with
  | none => rw [hf] at hc; simp at hc
  | some f =>
    rw [hf] at hc
    simp only [Bool.not_eq_eq_eq_not, Bool.not_true] at hc
    simp only [St.finish, hf, Sp.step]
    cases hr : f.receiver with
    | none =>
      cases o with
      | val v => exact h.fin_none hf hc hr _ (by simp)
      | exc e => exact h.fin_none hf hc hr _ (by intro g hg; simp only [Option.some.injEq] at hg; subst hg; exact ⟨rfl, rfl⟩)
    | some r =>
      simp only
      obtain ⟨h1, h2⟩ := (h.frame c f hf).2.2.2 r hr
      have he := (h.frame c f hf).2.2.1 hc
      cases hR : s.recv r with
      | none => rw [hR] at h2; simp at h2
      | some R =>
        have hg := h.going hR h1 he
        have hf' : s.frame c = some { receiver := some r, stuck := false } := hg.2.2.2.2
        simp only
        cases o with
        | val v =>
          simp only
          cases hA : R.awaited with
          | none =>
            have := h.fin_some hf' hR (.out (.val v)) (R' := { R with result := some (some v), done := true, awaited := none })
              (fun s' => ⟨hg.1, by simp [hg.2.2.1, hg.2.2.2.1]⟩) none (by simp)
            rw [hA] at this
            exact this
          | some a =>
            obtain ⟨hwa, -⟩ := h.awaited r R a hR hA
            have := h.fin_some hf' hR (.out (.val v))
              (R' := { R with result := some none, taken := true, exc := none, done := true, awaited := none })
              (fun s' => ⟨hg.1, by simp⟩) (some (.val v)) (by rintro g hg; simp at hg; subst hg; exact Or.inl rfl)
            rw [hA] at this
            simp only [St.resumeAw, hwa, upd_apply, if_true, St.getResult, hg.2.2.1]
            refine cast ?_ this
            congr 2
            funext x; simp only [upd_apply]; split <;> rfl
        | exc e =>
          simp only
          cases hA : R.awaited with
          | none =>
            have := h.fin_some hf' hR (.out (.exc e)) (R' := { R with exc := some (.user e), done := true, awaited := none })
              (fun s' => ⟨hg.1, by simp⟩) none (by simp)
            rw [hA] at this
            exact this
          | some a =>
            obtain ⟨hwa, -⟩ := h.awaited r R a hR hA
            have := h.fin_some hf' hR (.out (.exc e))
              (R' := { R with exc := some (.user e), taken := true, done := true, awaited := none })
              (fun s' => ⟨hg.1, by simp⟩) (some (.err (.user e))) (by rintro g hg; simp at hg; subst hg; rfl)
            rw [hA] at this
            simp only [St.resumeAw, hwa, upd_apply, if_true, St.getResult]
            refine cast ?_ this
            congr 2
            funext x; simp only [upd_apply]; split <;> rfl

theorem Inv.kill (h : Inv p s) {c : Nat} (hc : s.can (.kill c) = true) :
    Inv (p.step (.kill c)) (s.step (.kill c)) := by
  unfold St.step; rw [if_neg (by simp [h.ub, hc])]
  simp only [St.can] at hc
  cases hf : s.frame c with
  | none => rw [hf] at hc; simp at hc
  | some f =>
    rw [hf] at hc
    simp only [Bool.not_eq_eq_eq_not, Bool.not_true] at hc
    simp only [St.kill, hf, Sp.step]
    cases hr : f.receiver with
    | none => exact h.fin_none hf hc hr _ (by simp)
    | some r =>
      simp only
      obtain ⟨h1, h2⟩ := (h.frame c f hf).2.2.2 r hr
      have he := (h.frame c f hf).2.2.1 hc
      cases hR : s.recv r with
      | none => rw [hR] at h2; simp at h2
      | some R =>
        have hg := h.going hR h1 he
        have hf' : s.frame c = some { receiver := some r, stuck := false } := hg.2.2.2.2
        have := h.fin_some hf' hR .killed (R' := { R with exc := some .unexpected, done := true, awaited := none })
              (fun s' => ⟨hg.1, by simp⟩) none (by simp)
        simp only [hg.2.1, hg.2.2.1, and_self, if_true]
        cases hA : R.awaited with
        | none => rw [hA] at this; exact this
        | some a => rw [hA] at this; exact this

/-- A promise object that is not awaited disappears. -/
theorem Inv.vanish (h : Inv p s) {r : Nat} {R : Rec} (hR : s.recv r = some R) (hA : R.awaited = none)
    (fr : Nat → Option Frame) (lv : Nat → Bool)
    (hk1 : ∀ c, p.holds r = .coro c → p.ended c = none → ∀ f, s.frame c = some f → fr c = some { f with receiver := none })
    (hk2 : ∀ c, p.holds r = .coro c → p.ended c ≠ none → fr c = s.frame c)
    (hk3 : ∀ c, p.holds r ≠ .coro c → fr c = s.frame c) :
    Inv { p with holds := upd p.holds r .none } { s with recv := upd s.recv r none, frame := fr, leaving := lv } := by
  have hfr : ∀ c f, fr c = some f → (s.frame c = some f ∧ ∀ z, f.receiver = some z → z ≠ r) ∨
      (f.receiver = none ∧ ∃ g, s.frame c = some g ∧ g.stuck = f.stuck) := by
    intro c f hf
    by_cases hco : p.holds r = .coro c
    · cases he : p.ended c with
      | none =>
        have hg := (h.going hR hco he).2.2.2.2
        have := hk1 c hco he _ hg
        rw [this] at hf
        simp only [Option.some.injEq] at hf
        subst hf
        exact Or.inr ⟨rfl, _, hg, rfl⟩
      | some e =>
        rw [hk2 c hco (by rw [he]; simp)] at hf
        by_cases hstuck : f.stuck = true
        · exact Or.inr ⟨(h.frame c f hf).2.1 hstuck, f, hf, rfl⟩
        · have := (h.frame c f hf).2.2.1 (by simpa using hstuck)
          rw [he] at this; simp at this
    · rw [hk3 c hco] at hf
      refine Or.inl ⟨hf, fun z hz hzr => ?_⟩
      subst hzr
      exact hco ((h.frame c f hf).2.2.2 z hz).1
  constructor
  · exact h.ub
  · intro x; simp only [upd_apply]; have := h.gone x; grind
  · intro x X hX
    simp only [upd_apply] at hX ⊢
    by_cases hx : x = r
    · rw [if_pos hx] at hX; simp at hX
    · rw [if_neg hx] at hX ⊢
      refine (h.fit x X hX).congr fun c hc' => ⟨rfl, fun he => ?_⟩
      by_cases hco : p.holds r = .coro c
      · have h1 := (h.going hR hco he).2.2.2.2
        have h2 := (h.going hX hc' he).2.2.2.2
        rw [h1] at h2; simp only [Option.some.injEq, Frame.mk.injEq, and_true] at h2
        exact absurd h2.symm hx
      · exact hk3 c hco
  · intro c f hf
    simp only [upd_apply]
    rcases hfr c f hf with ⟨h1, h2⟩ | ⟨h1, g, h2, h3⟩
    · have := h.frame c f h1
      grind
    · have := h.frame c g h2
      grind
  · intro c hb
    have := h.unborn c hb
    simp only [upd_apply]
    grind
  · intro c hb he
    obtain ⟨f, h1, h2⟩ := h.live c hb he
    by_cases hco : p.holds r = .coro c
    · exact ⟨_, hk1 c hco he f h1, h2⟩
    · exact ⟨f, (hk3 c hco).trans h1, h2⟩
  · intro x X a hX ha
    simp only [upd_apply] at hX ⊢
    have := h.awaited x X a
    grind
  · intro a w hw hg hk
    obtain ⟨X, c, h1, h2, h3⟩ := h.pend a w hw hg hk
    have : w.self ≠ r := by
      rintro hwr; rw [hwr, hR] at h1; simp only [Option.some.injEq] at h1; subst h1; rw [hA] at h2; simp at h2
    exact ⟨X, c, by simp [this, h1], h2, by simp only [upd_apply, if_neg this]; exact h3⟩
  · exact fun a w g hw hg => (h.got a w g hw hg).mono rfl id (fun _ _ => id)
  · exact h.log
  · exact h.once
  · exact h.killed

theorem Inv.drop (h : Inv p s) {r : Nat} (hc : s.can (.drop r) = true) (ht : Tidy p s (.drop r)) :
    Inv (p.step (.drop r)) (s.step (.drop r)) := by
  unfold St.step; rw [if_neg (by simp [h.ub, hc])]
  simp only [St.can, Bool.and_eq_true] at hc
  obtain ⟨hfree, hsafe⟩ := ht
  cases hR : s.recv r with
  | none => rw [hR] at hc; simp at hc
  | some R =>
    have hA := hfree R hR
    simp only [St.destroyRec, hR, hA, Sp.step]
    by_cases hd : R.done = true
    · rw [if_pos hd]
      refine h.vanish hR hA s.frame _ ?_ (fun _ _ _ => rfl) (fun _ _ => rfl)
      intro c hco he
      have := (h.going hR hco he).2.1
      rw [hd] at this; simp at this
    · rw [if_neg hd]
      obtain ⟨c, f, h1, h2, h3 | h3⟩ := h.refOk hR (by simpa using hd) hsafe
      · simp only [h1, h2]
        rw [if_pos h3.2.2]
        refine h.vanish hR hA _ _ ?_ ?_ ?_
        · intro c' hc' _ f' hf'
          rw [h3.1] at hc'; simp only [Holds.coro.injEq] at hc'; subst hc'
          rw [h2] at hf'; simp only [Option.some.injEq] at hf'; subst hf'
          simp
        · intro c' hc' he
          rw [h3.1] at hc'; simp only [Holds.coro.injEq] at hc'; subst hc'
          exact absurd h3.2.1 he
        · intro c' hc'
          simp only [upd_apply]
          rw [if_neg (by rintro rfl; exact hc' h3.1)]
      · simp only [h1, h2]
        rw [if_neg h3.2]
        refine h.vanish hR hA s.frame _ ?_ (fun _ _ _ => rfl) (fun _ _ => rfl)
        intro c' hc'
        rw [h3.1] at hc'; simp at hc'

/-- Moving from `r` to `r'`, both not awaited: the common part of the move constructor
and the move assignment, after the promise at `r'`, if any, is gone. -/
theorem Inv.move (h : Inv p s) {r r' : Nat} {R : Rec} {as : Bool} (hne : r ≠ r') (hR : s.recv r = some R) (hA : R.awaited = none)
    (hz : ∀ c, p.holds r ≠ .zombie c) (hr' : s.recv r' = none) {L : Rec} {fr : Nat → Option Frame}
    (hfr : fr = match (generalizing := false) p.holds r with
      | .coro c => if p.ended c = none then upd s.frame c (some { receiver := some r', stuck := false }) else s.frame
      | _ => s.frame)
    (hL : ∀ s', Fit p s' r L (p.left as (p.holds r))) (hLa : L.awaited = none) :
    Inv { p with holds := upd (upd p.holds r' (p.holds r)) r (p.left as (p.holds r)) }
      { s with recv := upd (upd s.recv r (some L)) r' (some R), frame := fr } := by
  have hh' := h.gone r' hr'
  -- frames of coroutines that the promise does not stand for do not change
  have hfr1 : ∀ c, (p.holds r = .coro c → p.ended c ≠ none) → fr c = s.frame c := by
    intro c hc
    rw [hfr]
    cases hh : p.holds r <;> simp only
    rename_i c'
    split
    · rename_i he
      simp only [upd_apply]
      rw [if_neg (by rintro rfl; exact hc hh he)]
    · rfl
  have hfr2 : ∀ c, p.holds r = .coro c → p.ended c = none →
      fr c = some { receiver := some r', stuck := false } ∧ s.frame c = some { receiver := some r, stuck := false } := by
    intro c hc he
    refine ⟨?_, (h.going hR hc he).2.2.2.2⟩
    rw [hfr, hc]; simp [he]
  have hleft : p.left as (p.holds r) ≠ .none ∧ (∀ c, p.left as (p.holds r) ≠ .coro c) ∧
      (∀ c, p.left as (p.holds r) = .zombie c → p.holds r = .coro c) := by
    cases hh : p.holds r <;> simp only [Sp.left] <;> (try simp)
    split <;> (try split) <;> simp
  constructor
  · exact h.ub
  · intro x; simp only [upd_apply]; have := h.gone x; grind
  · intro x X hX
    simp only [upd_apply] at hX ⊢
    by_cases hx : x = r'
    · subst hx
      rw [if_pos rfl] at hX
      simp only [Option.some.injEq] at hX
      subst hX
      rw [if_neg (Ne.symm hne), if_pos rfl]
      have := h.fit r R hR
      cases hh : p.holds r <;> rw [hh] at this <;> simp only [Fit] at this ⊢ <;> try exact this
      rename_i c
      refine ⟨this.1, ?_⟩
      have h3 := this.2
      cases he : p.ended c with
      | none => rw [he] at h3; exact ⟨h3.1, h3.2.1, h3.2.2.1, h3.2.2.2.1, (hfr2 c hh he).1⟩
      | some e => rw [he] at h3; rcases e with (_ | _) | _ <;> exact h3
    · rw [if_neg hx] at hX
      by_cases hxr : x = r
      · subst hxr
        rw [if_pos rfl] at hX
        simp only [Option.some.injEq] at hX
        subst hX
        rw [if_pos rfl]
        exact (hL s).congr (p' := { p with holds := _ }) fun c hc => absurd hc (hleft.2.1 c)
      · rw [if_neg hxr] at hX
        rw [if_neg hxr, if_neg hx]
        refine (h.fit x X hX).congr fun c hc => ⟨rfl, fun he => ?_⟩
        refine hfr1 c fun hc' _ => ?_
        have h1 := (h.going hR hc' he).2.2.2.2
        have h2 := (h.going hX hc he).2.2.2.2
        rw [h1] at h2; simp only [Option.some.injEq, Frame.mk.injEq, and_true] at h2
        exact hxr h2.symm
  · intro c f hf
    by_cases hco : p.holds r = .coro c ∧ p.ended c = none
    · obtain ⟨h1, h2⟩ := hfr2 c hco.1 hco.2
      have hf : fr c = some f := hf
      rw [h1] at hf
      simp only [Option.some.injEq] at hf
      subst hf
      have := h.frame c _ h2
      refine ⟨this.1, by simp, fun _ => hco.2, ?_⟩
      intro z hz'
      simp only [Option.some.injEq] at hz'
      subst hz'
      simp [upd_apply, Ne.symm hne, hco.1]
    · have hf : fr c = some f := hf
      rw [hfr1 c (fun h1 h2 => hco ⟨h1, h2⟩)] at hf
      have := h.frame c f hf
      refine ⟨this.1, this.2.1, this.2.2.1, fun z hz' => ?_⟩
      obtain ⟨h3, h4⟩ := this.2.2.2 z hz'
      have hzr : z ≠ r := by
        rintro rfl
        have hst : f.stuck = false := by
          cases hst : f.stuck with
          | false => rfl
          | true => rw [this.2.1 hst] at hz'; simp at hz'
        exact hco ⟨h3, this.2.2.1 hst⟩
      have hzr' : z ≠ r' := by rintro rfl; rw [hr'] at h4; simp at h4
      simp only [upd_apply, if_neg hzr, if_neg hzr']
      exact ⟨h3, h4⟩
  · intro c hb
    have := h.unborn c hb
    have h2 := hleft.2.1 c
    have h3 := hleft.2.2 c
    simp only [upd_apply]
    grind
  · intro c hb he
    obtain ⟨f, h1, h2⟩ := h.live c hb he
    by_cases hco : p.holds r = .coro c
    · exact ⟨_, (hfr2 c hco he).1, rfl⟩
    · exact ⟨f, (hfr1 c (fun h _ => absurd h hco)).trans h1, h2⟩
  · intro x X a hX ha
    simp only [upd_apply] at hX ⊢
    have := h.awaited x X a
    grind
  · intro a w hw hg hk
    obtain ⟨X, c, h1, h2, h3⟩ := h.pend a w hw hg hk
    have hwr : w.self ≠ r := by
      rintro hwr; rw [hwr, hR] at h1; simp only [Option.some.injEq] at h1; subst h1; rw [hA] at h2; simp at h2
    have hwr' : w.self ≠ r' := by rintro hwr; rw [hwr, hr'] at h1; simp at h1
    refine ⟨X, c, by simp [hwr, hwr', h1], h2, ?_⟩
    simp only [upd_apply, if_neg hwr, if_neg hwr']; exact h3
  · exact fun a w g hw hg => (h.got a w g hw hg).mono rfl id (fun _ _ => id)
  · exact h.log
  · exact h.once
  · exact h.killed

theorem Inv.moveC (h : Inv p s) {r r' : Nat} (hc : s.can (.moveC r r') = true) (ht : Tidy p s (.moveC r r')) :
    Inv (p.step (.moveC r r')) (s.step (.moveC r r')) := by
  unfold St.step; rw [if_neg (by simp [h.ub, hc])]
  simp only [St.can, Bool.and_eq_true, Option.isNone_iff_eq_none] at hc
  obtain ⟨hc, hr'⟩ := hc
  obtain ⟨hfree, hz⟩ := ht
  cases hR : s.recv r with
  | none => rw [hR] at hc; simp at hc
  | some R =>
    have hA := hfree R hR
    have hne : r ≠ r' := by rintro rfl; rw [hR] at hr'; simp at hr'
    simp only [St.moveConstruct, hR, Sp.step]
    have hfit := h.fit r R hR
    by_cases hd : R.done = false ∧ R.exc = none
    · rw [if_pos hd]
      obtain ⟨c, f, h1, h2, h3 | h3⟩ := h.refOk hR hd.1 (fun c hc => absurd hc (hz c))
      · simp only [h1, h2]
        have hf := (h.going hR h3.1 h3.2.1).2.2.2.2
        rw [h2] at hf; simp only [Option.some.injEq] at hf; subst hf
        refine h.move hne hR hA hz hr' (as := false) ?_ (fun s' => ?_) rfl
        · rw [h3.1]; simp [h3.2.1]
        · rw [h3.1]; simp [Sp.left, h3.2.1, Fit]
      · exact absurd h3.1 (hz c)
    · rw [if_neg hd]
      refine h.move hne hR hA hz hr' (as := false) ?_ (fun s' => ?_) rfl
      · cases hh : p.holds r <;> simp only
        rename_i c
        rw [if_neg]
        intro he
        have := h.going hR hh he
        exact hd ⟨this.2.1, this.2.2.1⟩
      · have : p.left false (p.holds r) = .husk := by
          cases hh : p.holds r <;> simp only [Sp.left]
          rename_i c
          rw [if_neg]
          intro he
          have := h.going hR hh he
          exact hd ⟨this.2.1, this.2.2.1⟩
        rw [this]; exact ⟨rfl, rfl, rfl⟩

theorem Inv.moveA (h : Inv p s) {r r' : Nat} (hc : s.can (.moveA r r') = true) (ht : Tidy p s (.moveA r r')) :
    Inv (p.step (.moveA r r')) (s.step (.moveA r r')) := by
  unfold St.step; rw [if_neg (by simp [h.ub, hc])]
  simp only [St.can, Bool.and_eq_true, bne_iff_ne, ne_eq] at hc
  obtain ⟨⟨⟨-, hc1⟩, hc2⟩, hne⟩ := hc
  obtain ⟨hf1, hf2, hz, hho⟩ := ht
  cases hR1 : s.recv r with
  | none => rw [hR1] at hc1; simp at hc1
  | some R1 =>
    cases hR2 : s.recv r' with
    | none => rw [hR2] at hc2; simp at hc2
    | some R2 =>
      have hA1 := hf1 R1 hR1
      have hA2 := hf2 R2 hR2
      have hun : ∃ fr, (({ s with leaving := upd s.leaving r false } : St).unlink r) =
          { s with leaving := upd s.leaving r false, frame := fr } ∧
          Inv { p with holds := upd p.holds r .none }
            { s with recv := upd s.recv r none, frame := fr, leaving := upd s.leaving r false } ∧
          ∀ c, p.holds r' = .coro c → p.ended c = none → fr c = s.frame c := by
        rcases hho with ⟨c, h1, h2⟩ | ⟨v, h1⟩
        · obtain ⟨g1, -, -, -, g2⟩ := h.going hR1 h1 h2
          refine ⟨upd s.frame c (some { receiver := none, stuck := false }), ?_, ?_, ?_⟩
          · simp [St.unlink, hR1, g1, g2]
          · refine h.vanish hR1 hA1 _ _ ?_ ?_ ?_
            · intro c' hc' _ f' hf'
              rw [h1] at hc'; simp only [Holds.coro.injEq] at hc'; subst hc'
              rw [g2] at hf'; simp only [Option.some.injEq] at hf'; subst hf'
              simp
            · intro c' hc' he
              rw [h1] at hc'; simp only [Holds.coro.injEq] at hc'; subst hc'
              exact absurd h2 he
            · intro c' hc'
              simp only [upd_apply]
              rw [if_neg (by rintro rfl; exact hc' h1)]
          · intro c' hc' he
            simp only [upd_apply]
            rw [if_neg]
            rintro rfl
            have := (h.going hR2 hc' he).2.2.2.2
            rw [g2] at this; simp only [Option.some.injEq, Frame.mk.injEq, and_true] at this
            exact hne this
        · have hf := h.fit r R1 hR1
          rw [h1] at hf
          refine ⟨s.frame, ?_, h.vanish hR1 hA1 _ _ ?_ (fun _ _ _ => rfl) (fun _ _ => rfl), fun _ _ _ => rfl⟩
          · simp [St.unlink, hR1, hf.2.2.2.1]
          · intro c hc; rw [h1] at hc; simp at hc
      obtain ⟨fr, e1, h', hfr'⟩ := hun
      unfold St.moveAssign
      simp only [e1]
      simp only [hR1, hR2, hA1, Sp.step, h.ub, Bool.false_eq_true, if_false]
      have e2 : upd (upd p.holds r .none) r (p.holds r') = upd p.holds r (p.holds r') := by
        funext x; simp only [upd_apply]; split <;> rfl
      have e4 : (upd p.holds r .none) r' = p.holds r' := by
        simp only [upd_apply]; rw [if_neg (Ne.symm hne)]
      have e5 : ∀ h0 : Holds, ({ p with holds := upd p.holds r .none } : Sp).left true h0 = p.left true h0 := by
        intro h0; cases h0 <;> rfl
      have e3 : ∀ L, upd (upd (upd s.recv r none) r' (some L)) r (some R2) = upd (upd s.recv r' (some L)) r (some R2) := by
        intro L; funext x; simp only [upd_apply]; split
        · rfl
        · rfl
      have mv := fun (L : Rec) (fr2 : Nat → Option Frame) => h'.move (r := r') (r' := r) (R := R2) (as := true) (Ne.symm hne)
        (by simp only [upd_apply]; rw [if_neg (Ne.symm hne)]; exact hR2) hA2
        (by simp only [upd_apply]; rw [if_neg (Ne.symm hne)]; exact hz) (by simp) (L := L) (fr := fr2)
      simp only [e4, e5, e2, e3, h.ub] at mv
      by_cases hd : R2.done = false ∧ R2.exc = none
      · rw [if_pos hd]
        obtain ⟨c, f, g1, g2, g3 | g3⟩ := h.refOk hR2 hd.1 (fun c hc => absurd hc (hz c))
        · have hf := (h.going hR2 g3.1 g3.2.1).2.2.2.2
          simp only [g1, hfr' c g3.1 g3.2.1, hf]
          refine mv _ _ ?_ (fun s' => ?_) ?_
          · rw [g3.1]; simp [g3.2.1]
          · rw [g3.1]; simp [Sp.left, g3.2.1, Fit, hd.1, g1]
          · rfl
        · exact absurd g3.1 (hz c)
      · rw [if_neg hd]
        refine mv _ _ ?_ (fun s' => ?_) ?_
        · cases hh : p.holds r' <;> simp only
          rename_i c
          rw [if_neg]
          intro he
          have := h.going hR2 hh he
          exact hd ⟨this.2.1, this.2.2.1⟩
        · have hl : p.left true (p.holds r') = .husk := by
            cases hh : p.holds r' <;> simp only [Sp.left]
            rename_i c
            rw [if_neg]
            intro he
            have := h.going hR2 hh he
            exact hd ⟨this.2.1, this.2.2.1⟩
          rw [hl]
          refine ⟨?_, rfl, rfl⟩
          cases hx : R2.done with
          | true => rfl
          | false =>
            obtain ⟨c, f, -, -, g3 | g3⟩ := h.refOk hR2 hx (fun c hc => absurd hc (hz c))
            · have := h.going hR2 g3.1 g3.2.1
              exact absurd ⟨this.2.1, this.2.2.1⟩ hd
            · exact absurd g3.1 (hz c)
        · rfl

theorem Inv.step (h : Inv p s) {e : Ev} (hc : s.can e = true) (ht : Tidy p s e) : Inv (p.step e) (s.step e) := by
  have hst : ∀ {t : St}, (if s.ub || !s.can e then s else t) = t := by
    intro t; rw [if_neg (by simp [h.ub, hc])]
  cases e with
  | create c r => exact h.create hc
  | noop r v => exact h.noop hc
  | finish c o => exact h.finish hc
  | kill c => exact h.kill hc
  | await a r => exact h.await hc ht
  | interrupt a => exact h.interrupt hc ht
  | moveC r r' => exact h.moveC hc ht
  | moveA r r' => exact h.moveA hc ht
  | drop r => exact h.drop hc ht
  | get r => exact h.get hc ht
  | detach r => unfold St.step; rw [hst]; exact h.attach (by simpa [St.can] using hc)
  | attach r => unfold St.step; rw [hst]; exact h.attach (by simpa [St.can] using hc)
  | cancel r => unfold St.step; rw [hst]; exact h.cancel (by simpa [St.can] using hc) ht
  | leave r => unfold St.step; rw [hst]; exact h.leave (by simpa [St.can] using hc) ht

theorem Inv.steps (h : Inv p s) : ∀ {es : List Ev}, TidyRun p s es → Inv (p.steps es) (s.steps es) := by
  intro es
  induction es generalizing p s with
  | nil => intro _; exact h
  | cons e es ih => intro ht; exact ih (h.step ht.1 ht.2.1) ht.2.2

theorem Inv.run {es : List Ev} (ht : TidyRun {} {} es) : Inv (spec es) (St.run es) := Inv.init.steps ht

end Cobalt.Prom
