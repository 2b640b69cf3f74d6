import Verif.Cst.Spec
/-! # Lemmas about the cancellation state -/
namespace Cobalt.Cst

theorem run_append (d : Filter) (s : St) (a b : List Ev) :
    s.run d (a ++ b) = (s.run d a).run d b := List.foldl_append ..

theorem run_cons (d : Filter) (s : St) (e : Ev) (b : List Ev) :
    s.run d (e :: b) = (s.step d e).run d b := rfl

theorem run_src (d : Filter) (es : List Ev) : ∀ s : St, (s.run d es).src = sourceAfter s.src es := by
  induction es with
  | nil => intro s; rfl
  | cons e es ih =>
    intro s
    rw [run_cons, ih]
    cases e <;> simp only [St.step, St.renew, sourceAfter]
    split <;> rfl

theorem run_enabled (d : Filter) (es : List Ev) : ∀ s : St, (s.run d es).throwIf = enabled s.throwIf es := by
  induction es with
  | nil => intro s; rfl
  | cons e es ih =>
    intro s
    rw [run_cons, ih]
    cases e <;> simp only [St.step, St.renew, enabled]
    split <;> rfl

/-- Without resets the filters and the source stay, and what is stored comes from the last
cancellation. -/
theorem run_mid (d : Filter) (mid : List Ev) : ∀ (s : St), (∀ e ∈ mid, e.isReset = false) →
    (s.run d mid).inF = s.inF ∧ (s.run d mid).outF = s.outF ∧ (s.run d mid).src = s.src ∧
    ∀ x, s.src = some x →
      (∃ a c b, mid = a ++ .emit x c :: b ∧ (∀ c', .emit x c' ∉ b) ∧ (s.run d mid).cancelled = s.inF c) ∨
      ((∀ c, .emit x c ∉ mid) ∧ (s.run d mid).cancelled = s.cancelled) := by
  induction mid with
  | nil => intro s _; exact ⟨rfl, rfl, rfl, fun x _ => .inr ⟨by simp, rfl⟩⟩
  | cons e mid ih =>
    intro s h
    have hm : ∀ e ∈ mid, e.isReset = false := fun e' he' => h e' (List.mem_cons_of_mem _ he')
    obtain ⟨i1, i2, i3, i4⟩ := ih (s.step d e) hm
    have hr := h e (List.mem_cons_self ..)
    have key : (s.step d e).inF = s.inF ∧ (s.step d e).outF = s.outF ∧ (s.step d e).src = s.src := by
      cases e with
      | emit x c => simp only [St.step]; split <;> exact ⟨rfl, rfl, rfl⟩
      | throwIf b => exact ⟨rfl, rfl, rfl⟩
      | reset0 => cases hr
      | reset1 f => cases hr
      | reset2 i o => cases hr
      | source s => cases hr
    obtain ⟨k1, k2, k3⟩ := key
    rw [run_cons]
    refine ⟨i1.trans k1, i2.trans k2, i3.trans k3, fun x hx => ?_⟩
    rcases i4 x (k3.trans hx) with ⟨a, c, b, hmid, hb, hc⟩ | ⟨hn, hc⟩
    · exact .inl ⟨e :: a, c, b, by rw [hmid]; rfl, hb, by rw [hc, k1]⟩
    · cases e with
      | emit y c =>
        by_cases hy : y = x
        · subst hy
          refine .inl ⟨[], c, mid, rfl, hn, ?_⟩
          rw [hc]; simp [St.step, hx]
        · refine .inr ⟨?_, ?_⟩
          · intro c' hm'
            rcases List.mem_cons.1 hm' with h' | h'
            · injection h' with h1 h2; exact hy h1.symm
            · exact hn c' h'
          · rw [hc]
            have : s.src ≠ some y := by rw [hx]; intro h; cases h; exact hy rfl
            simp [St.step, this]
      | throwIf b =>
        refine .inr ⟨fun c hm' => ?_, hc⟩
        rcases List.mem_cons.1 hm' with h' | h'
        · cases h'
        · exact hn c h'
      | reset0 => cases hr
      | reset1 f => cases hr
      | reset2 i o => cases hr
      | source s => cases hr

/-- What the events do is what those since the last reset do to a new state. -/
theorem since_run {d : Filter} {src₀ : Option Nat} {f₀ : Filter} {es : List Ev} {f o : Filter}
    {src : Option Nat} {mid : List Ev} (h : Since d (St.start src₀ f₀) es f o src mid) :
    ∃ s₀ : St, s₀.inF = f ∧ s₀.outF = o ∧ s₀.src = src ∧ s₀.cancelled = .none_ ∧
      (St.start src₀ f₀).run d es = s₀.run d mid := by
  rcases h.2 with ⟨rfl, rfl, rfl, rfl⟩ | ⟨pre, r, rfl, hr⟩
  · exact ⟨_, rfl, rfl, rfl, rfl, rfl⟩
  · refine ⟨((St.start src₀ f₀).run d pre).step d r, ?_⟩
    have hs := run_src d pre (St.start src₀ f₀)
    rw [run_append, run_cons]
    rw [← hs] at hr
    generalize (St.start src₀ f₀).run d pre = t at *
    cases r with
    | emit x c => cases hr
    | throwIf b => cases hr
    | reset0 => cases hr; exact ⟨rfl, rfl, rfl, rfl, rfl⟩
    | reset1 f => cases hr; exact ⟨rfl, rfl, rfl, rfl, rfl⟩
    | reset2 i o => cases hr; exact ⟨rfl, rfl, rfl, rfl, rfl⟩
    | source s => cases hr; exact ⟨rfl, rfl, rfl, rfl, rfl⟩

/-- There always is a last reset, or none. -/
theorem since_exists (d : Filter) (s : St) (es : List Ev) :
    ∃ f o src mid, Since d s es f o src mid := by
  suffices ∀ es : List Ev, (∀ e ∈ es, e.isReset = false) ∨
      ∃ pre r mid, es = pre ++ r :: mid ∧ r.isReset = true ∧ ∀ e ∈ mid, e.isReset = false by
    rcases this es with h | ⟨pre, r, mid, rfl, hr, hm⟩
    · exact ⟨_, _, _, es, h, .inl ⟨rfl, rfl, rfl, rfl⟩⟩
    · have : ∃ t, r.renews d (sourceAfter s.src pre) = some t := by
        cases r <;> first | exact ⟨_, rfl⟩ | cases hr
      obtain ⟨⟨f, o, src⟩, ht⟩ := this
      exact ⟨f, o, src, mid, hm, .inr ⟨pre, r, rfl, ht⟩⟩
  intro es
  induction es with
  | nil => exact .inl (by simp)
  | cons e es ih =>
    rcases ih with h | ⟨pre, r, mid, rfl, hr, hm⟩
    · cases he : e.isReset with
      | true => exact .inr ⟨[], e, es, rfl, he, h⟩
      | false =>
        refine .inl fun e' he' => ?_
        rcases List.mem_cons.1 he' with rfl | h'
        · exact he
        · exact h e' h'
    · exact .inr ⟨e :: pre, r, mid, rfl, hr, hm⟩

/-- The coroutine is cancelled exactly if the last cancellation since the reset passes. -/
theorem cancelled_iff (d : Filter) (src₀ : Option Nat) (f₀ : Filter) (es : List Ev) :
    ((St.start src₀ f₀).run d es).isCancelled = true ↔ LastPasses d (St.start src₀ f₀) es := by
  constructor
  · intro h
    obtain ⟨f, o, src, mid, hs⟩ := since_exists d (St.start src₀ f₀) es
    obtain ⟨s₀, h1, h2, h3, h4, h5⟩ := since_run hs
    obtain ⟨m1, m2, m3, m4⟩ := run_mid d mid s₀ hs.1
    unfold St.isCancelled at h
    rw [h5] at h
    simp only [Bool.and_eq_true, decide_eq_true_eq] at h
    obtain ⟨ha, hb⟩ := h
    rw [m3] at ha
    obtain ⟨x, hx⟩ := Option.isSome_iff_exists.1 ha
    rcases m4 x hx with ⟨a, c, b, hmid, hn, hc⟩ | ⟨_, hc⟩
    · subst hmid
      rw [h3] at hx
      subst hx
      exact ⟨f, o, x, a, c, b, hs, hn, by rw [← h1, ← hc]; exact hb⟩
    · rw [hc, h4] at hb; exact absurd rfl hb
  · intro ⟨f, o, x, a, c, b, hs, hn, hp⟩
    obtain ⟨s₀, h1, h2, h3, h4, h5⟩ := since_run hs
    obtain ⟨m1, m2, m3, m4⟩ := run_mid d _ s₀ hs.1
    unfold St.isCancelled
    rw [h5, m3, h3]
    simp only [Option.isSome_some, Bool.true_and, decide_eq_true_eq]
    have step : (s₀.run d (a ++ .emit x c :: b)).cancelled = f c := by
      rw [run_append, run_cons]
      have ha : ∀ e ∈ a, e.isReset = false := fun e he => hs.1 e (List.mem_append_left _ he)
      have hb : ∀ e ∈ b, e.isReset = false := fun e he =>
        hs.1 e (List.mem_append_right _ (List.mem_cons_of_mem _ he))
      obtain ⟨p1, p2, p3, _⟩ := run_mid d a s₀ ha
      obtain ⟨_, _, _, q4⟩ := run_mid d b ((s₀.run d a).step d (.emit x c)) hb
      have hsrc : ((s₀.run d a).step d (.emit x c)).src = some x := by
        simp [St.step, p3, h3]
      rcases q4 x hsrc with ⟨a', c', b', hb', _, _⟩ | ⟨_, hc⟩
      · exact absurd (by rw [hb']; simp) (hn c')
      · rw [hc]; simp [St.step, p3, h3, p1, h1]
    rw [step]
    exact hp

end Cobalt.Cst
