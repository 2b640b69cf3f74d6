import Verif.Gen.TrueLemmas
/-! C32: exactly when a generator is true as long as there is something to come, and fails its awaits only after that. -/
namespace Cobalt.Gen

/-- **C32** for one point of a history: `p` is what happened so far. -/
def C32At (p : Sp) (s : St) : Prop := p.dropped = false →
  (s.toBool = true ↔ p.ended = false ∨ p.outs ≠ delivered s) ∧
  ∀ a, (a, .err .returnedVoid) ∈ s.log → p.ended = true ∧ p.outs = delivered s

theorem at_true {p : Sp} {s : St} (b : Basic p s) (n : s.recv = true → s.done = p.ended) (hk : p.outs = total s)
    (hr : s.recv = true) : s.toBool = true ↔ p.ended = false ∨ p.outs ≠ delivered s := by
  have hn := n hr
  have hk : p.outs = delivered s ++ held s := hk
  have hh : held s = [] ↔ s.result = none ∧ s.exc = none := by
    have := b.buf
    unfold held
    cases h1 : s.result <;> cases h2 : s.buffer <;> cases h3 : s.exc <;> simp_all [optVal, optErr]
  rw [hk, ← hn]
  simp only [ne_eq, List.append_right_eq_self, hh, St.toBool, Bool.or_eq_true, Bool.not_eq_true', Option.isSome_iff_ne_none]
  cases s.done <;> cases s.result <;> cases s.exc <;> simp

theorem at_right {p : Sp} {s : St} (b : Basic p s) (n : Ends p s) (r : Right s) (hk : p.outs = total s) : C32At p s := by
  intro hd
  have hr : s.recv = true := by have := b.dropped; rw [hd] at this; simpa using this.symm
  refine ⟨at_true b n.1 hk hr, fun a ha => ?_⟩
  obtain ⟨r1, r2, r3⟩ := r a ha
  refine ⟨by rw [← n.1 hr, r1], ?_⟩
  have hk : p.outs = delivered s ++ held s := hk
  rw [hk, held, r2, r3, b.buf r2]
  simp [optErr, optVal]

theorem exact_true (es : List Ev) : ∀ {p : Sp} {s : St}, Basic p s → Wait s → Ends p s → Right s → s.ub = false →
    Legal s es → FineRun s es → p.outs = total s →
    ((∀ k, C32At (p.steps (es.take k)) (s.steps (es.take k))) ↔ NeverEmpties s es) := by
  induction es with
  | nil =>
    intro p s b w n r hu hl hf hk
    exact ⟨fun _ => trivial, fun _ k => by rw [List.take_nil]; exact at_right b n r hk⟩
  | cons e es ih =>
    intro p s b w n r hu hl hf hk
    have hs : (s.step e).ub = false := by simpa using fun k => hf.1.2 ((step_ub b w hu hl.1).mp k)
    obtain ⟨b', d⟩ := step_does b hu hl.1 hs
    have hk' := (step_kept hk d).1 hf.1.1
    obtain ⟨n', r', x'⟩ := step_after b w n r hu hl.1 hs
    constructor
    · intro h
      have hne : ¬Empties s e := by
        intro k
        obtain ⟨⟨a, ha⟩, h2, h3⟩ := x' k
        have := h 1
        rw [List.take_succ_cons, List.take_zero] at this
        have hdr : (p.step e).dropped = false := by rw [b'.dropped, h3]; rfl
        have := ((this hdr).2 a ha).1
        change (p.step e).ended = true at this
        rw [← n'.1 h3, h2] at this; cases this
      refine ⟨hne, (ih b' (w.step hu hl.1) n' (r' hne) hs hl.2 hf.2 hk').mp fun k => ?_⟩
      have := h (k + 1)
      rwa [List.take_succ_cons] at this
    · rintro ⟨hne, h⟩ k
      cases k with
      | zero => exact at_right b n r hk
      | succ k =>
        rw [List.take_succ_cons]
        exact (ih b' (w.step hu hl.1) n' (r' hne) hs hl.2 hf.2 hk').mpr h k

/-- **C32**, exactly, in the histories in which everything is given once and in order (`C30_exact`): the generator is
true exactly as long as there is something to come, and an await fails as if it was exhausted only if it is, at every
point of the history, exactly if nothing of `Empties` happens. -/
theorem C32_exact (v : Bool) (es : List Ev) (hl : Legal { void := v } es) (hf : FineRun { void := v } es) :
    (∀ k, C32At (spec (es.take k)) (St.run v (es.take k))) ↔ NeverEmpties { void := v } es :=
  exact_true es (Basic.init v) (Wait.init v) ⟨fun _ => rfl, fun _ h => by cases h⟩ (fun _ h => by cases h) rfl hl hf rfl

/-- When a generator is true does not depend on that. -/
theorem C32_true_exact (v : Bool) (es : List Ev) (hl : Legal { void := v } es) (hf : FineRun { void := v } es)
    (hd : (spec es).dropped = false) :
    (St.run v es).toBool = true ↔ (spec es).ended = false ∨ (spec es).outs ≠ delivered (St.run v es) := by
  obtain ⟨hu, hk⟩ := (C30_exact v es hl).mpr hf
  have b : Basic (spec es) (St.run v es) := basic_steps es (Basic.init v) rfl hl hu
  have key : ∀ (es : List Ev) {p : Sp} {s : St}, (s.recv = true → s.done = p.ended) → s.ub = false → Legal s es →
      (s.steps es).ub = false → (s.steps es).recv = true → (s.steps es).done = (p.steps es).ended := by
    intro es
    induction es with
    | nil => intro p s n _ _ _; exact n
    | cons e es ih =>
      intro p s n hu hl hv
      have hs := not_ub_cons hv
      exact ih (done_step n hu hl.1 hs) hs hl.2 hv
  exact at_true b (key es (fun _ => rfl) rfl hl hu) hk (by have := b.dropped; rw [hd] at this; simpa using this.symm)

instance decNever (s : St) : (es : List Ev) → Decidable (NeverEmpties s es)
  | [] => .isTrue trivial
  | e :: es => have := decNever (s.step e) es; inferInstanceAs (Decidable (_ ∧ _))

/-- The histories of `Gen/Props.lean`: the lazy one, and the one that ends an await with nothing. -/
example : Legal { void := true } lazySched ∧ FineRun { void := true } lazySched ∧ NeverEmpties { void := true } lazySched :=
  ⟨by decide, (C30_exact true _ (by decide)).mp (by decide), by decide⟩

example : Legal {} [.yield 1, .await 0 10, .await 1 11, .interrupt 0] ∧
    FineRun {} [.yield 1, .await 0 10, .await 1 11, .interrupt 0] ∧
    ¬NeverEmpties {} [.yield 1, .await 0 10, .await 1 11, .interrupt 0] :=
  ⟨by decide, (C30_exact false _ (by decide)).mp (by decide), by decide⟩

end Cobalt.Gen
