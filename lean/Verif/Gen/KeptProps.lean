import Verif.Gen.KeptUb
import Verif.Gen.Props
/-! C30: exactly which histories of a generator give everything once, in order. -/
namespace Cobalt.Gen

variable {p : Sp} {s : St}

/-- Every event is fine, and nothing undefined happens. -/
def FineRun : St → List Ev → Prop
  | _, [] => True
  | s, e :: es => (Fine s e ∧ ¬Undef s e) ∧ FineRun (s.step e) es

theorem ub_step (e : Ev) (hu : s.ub = true) : s.step e = s := by
  unfold St.step; rw [if_pos (by simp [hu])]

theorem ub_steps (es : List Ev) (hu : s.ub = true) : s.steps es = s := by
  induction es with
  | nil => rfl
  | cons e es ih => rw [St.steps, List.foldl_cons, ub_step e hu]; exact ih

/-- Something has been given twice or in the wrong order. -/
def Broken (p : Sp) (s : St) : Prop :=
  p.outs.length < (total s).length ∨
    p.outs.length = (total s).length ∧ p.outs ≠ total s ∧ (s.recv = true → s.done = true)

theorem Broken.ne (h : Broken p s) : p.outs ≠ total s := by
  rcases h with h | h
  · intro e; rw [e] at h; omega
  · exact h.2.1

/-- This is not made good again. -/
theorem Broken.step {q : Sp} {t : St} {f : Prop} (h : Broken p s) (d : Does p s q t f) : Broken q t := by
  cases d with
  | calm hf ho ht hd =>
    rcases h with h | ⟨h1, h2, h3⟩
    · left; rw [ho, ht]; exact h
    · right; rw [ho, ht]; exact ⟨h1, h2, hd h3⟩
  | adds hf g hr hd ho ht =>
    rcases h with h | ⟨h1, h2, h3⟩
    · left; rw [ho, ht]; simpa using h
    · rw [h3 hr] at hd; cases hd
  | over hf D v l e hr hd ho hs ht hn =>
    rcases h with h | ⟨h1, h2, h3⟩
    · left; rw [ho, ht]; rw [hs] at h
      simp only [List.length_append, List.length_cons, List.length_nil] at h ⊢; omega
    · rw [h3 hr] at hd; cases hd
  | again hf ho ht =>
    left
    rcases h with h | ⟨h1, h2, h3⟩
    · rw [ho]; omega
    · rw [ho]; omega

theorem step_kept {q : Sp} {t : St} {f : Prop} (h : p.outs = total s) (d : Does p s q t f) :
    (f → q.outs = total t) ∧ (¬f → Broken q t) := by
  cases d with
  | calm hf ho ht hd => exact ⟨fun _ => by rw [ho, ht, h], fun k => absurd hf k⟩
  | adds hf g hr hd ho ht => exact ⟨fun _ => by rw [ho, ht, h], fun k => absurd hf k⟩
  | over hf D v l e hr hd ho hs ht hn =>
    refine ⟨fun k => absurd k hf, fun _ => .inr ⟨?_, ?_, fun _ => hn⟩⟩
    · rw [ho, ht, h, hs]
      simp only [List.length_append, List.length_cons, List.length_nil]; omega
    · rw [ho, ht, h, hs, List.append_assoc]
      intro he
      have := List.append_cancel_left he
      simp at this
  | again hf ho ht =>
    refine ⟨fun k => absurd k hf, fun _ => .inl ?_⟩
    rw [ho, h]; omega

theorem not_ub_cons {e : Ev} {es : List Ev} (hu : (s.steps (e :: es)).ub = false) : (s.step e).ub = false := by
  cases h : (s.step e).ub with
  | false => rfl
  | true =>
    rw [St.steps, List.foldl_cons] at hu
    have := ub_steps es h
    rw [St.steps] at this
    rw [this, h] at hu; cases hu

theorem broken_steps (es : List Ev) : ∀ {p : Sp} {s : St}, Basic p s → s.ub = false → Legal s es →
    (s.steps es).ub = false → Broken p s → Broken (p.steps es) (s.steps es) := by
  induction es with
  | nil => intro p s _ _ _ _ h; exact h
  | cons e es ih =>
    intro p s b hu hl hv hb
    have hs := not_ub_cons hv
    obtain ⟨b', d⟩ := step_does b hu hl.1 hs
    exact ih b' hs hl.2 hv (hb.step d)

theorem exact_steps (es : List Ev) : ∀ {p : Sp} {s : St}, Basic p s → Wait s → s.ub = false → Legal s es →
    p.outs = total s →
    (((s.steps es).ub = false ∧ (p.steps es).outs = total (s.steps es)) ↔ FineRun s es) := by
  induction es with
  | nil => intro p s b w hu hl h; exact ⟨fun _ => trivial, fun _ => ⟨hu, h⟩⟩
  | cons e es ih =>
    intro p s b w hu hl h
    have hub := step_ub b w hu hl.1
    constructor
    · rintro ⟨hv, hk⟩
      have hs := not_ub_cons hv
      obtain ⟨b', d⟩ := step_does b hu hl.1 hs
      have hf : Fine s e := Classical.byContradiction fun hf =>
        (broken_steps es b' hs hl.2 hv ((step_kept h d).2 hf)).ne hk
      refine ⟨⟨hf, fun k => ?_⟩, (ih b' (w.step hu hl.1) hs hl.2 ((step_kept h d).1 hf)).mp ⟨hv, hk⟩⟩
      rw [hub.mpr k] at hs; cases hs
    · rintro ⟨⟨hf, hn⟩, hr⟩
      have hs : (s.step e).ub = false := by simpa using fun k => hn (hub.mp k)
      obtain ⟨b', d⟩ := step_does b hu hl.1 hs
      exact (ih b' (w.step hu hl.1) hs hl.2 ((step_kept h d).1 hf)).mpr hr

/-- **C30**, exactly: in a possible history nothing undefined happens and everything the body gave was delivered, in
order, or is still held, exactly if the body ended by an exception, or was destroyed, only when no value was held,
`get` was not called while an exception was held, and nothing of `Undef` happened. -/
theorem C30_exact (v : Bool) (es : List Ev) (hl : Legal { void := v } es) :
    ((St.run v es).ub = false ∧ (spec es).outs = delivered (St.run v es) ++ held (St.run v es)) ↔
      FineRun { void := v } es :=
  exact_steps es (Basic.init v) (Wait.init v) rfl hl rfl

theorem basic_steps (es : List Ev) : ∀ {p : Sp} {s : St}, Basic p s → s.ub = false → Legal s es →
    (s.steps es).ub = false → Basic (p.steps es) (s.steps es) := by
  induction es with
  | nil => intro p s b _ _ _; exact b
  | cons e es ih =>
    intro p s b hu hl hv
    have hs := not_ub_cons hv
    exact ih (step_does b hu hl.1 hs).1 hs hl.2 hv

/-- What is held is what the next awaits give, in that order: one that is defined takes the first. -/
theorem C30_gives (v : Bool) (es : List Ev) (hl : Legal { void := v } es) {a u : Nat} {x : Got} {rest : List Got}
    (hc : (St.run v es).can (.await a u) = true) (hu : (St.run v (es ++ [.await a u])).ub = false)
    (hx : held (St.run v es) = x :: rest) :
    (St.run v (es ++ [.await a u])).log = (a, x) :: (St.run v es).log ∧ held (St.run v (es ++ [.await a u])) = rest := by
  rw [run_append] at hu ⊢
  have hs : (St.run v es).ub = false := by
    cases h : (St.run v es).ub with
    | false => rfl
    | true => rw [ub_step _ h, h] at hu; cases hu
  have b : Basic (spec es) (St.run v es) := basic_steps es (Basic.init v) rfl hl hs
  generalize St.run v es = s at *
  have h1 := b.1
  unfold St.step at hu ⊢
  rw [if_neg (by simp [hs, hc])] at hu ⊢
  cases he : s.exc with
  | some e =>
    simp only [held, he, optErr, List.cons_append, List.nil_append, List.cons.injEq] at hx
    simp [St.await, St.ready, he, St.resumeAw, St.give, ← hx.1, ← hx.2, held, optErr]
  | none =>
    cases hr : s.result with
    | none => simp [held, he, hr, h1 hr, optErr, optVal] at hx
    | some y =>
      simp only [held, he, hr, optErr, optVal, List.cons_append, List.nil_append, List.cons.injEq] at hx
      have hp : s.pushed = none := by
        cases hp : s.pushed with
        | none => rfl
        | some q => simp [St.await, St.ready, he, hr, St.resumeAw, hp] at hu
      simp only [St.await, St.ready, he, hr, St.resumeAw, hp]
      simp [St.takeResult, St.give, ← hx.1, ← hx.2, held, optErr, optVal]

/-- The histories of `Gen/Props.lean`: a lazy one that is interrupted, an eager one with pushed values; in the middle
something is held. -/
example : Legal { void := true } lazySched ∧ (St.run true lazySched).ub = false ∧
    (spec lazySched).outs = delivered (St.run true lazySched) ++ held (St.run true lazySched) := by decide

example : Legal {} (eagerSched.take 8) ∧ held (St.run false (eagerSched.take 8)) = [.val 3] ∧
    (St.run false (eagerSched.take 8)).can (.await 3 13) = true ∧
    (St.run false (eagerSched.take 8 ++ [.await 3 13])).ub = false := by decide

/-- Fine although it is not among the uses of `Tidy`: an eager generator is asked with `get`, which leaves the body
where it is. -/
example : FineRun {} [.yield 1, .get 0] ∧ ¬TidyRun {} {} [.yield 1, .get 0] :=
  ⟨(C30_exact false _ (by decide)).mp (by decide), by decide⟩

/-- And not fine: the exception overtakes the value. -/
example : ¬FineRun { void := true } [.initial, .await 0 0, .interrupt 0, .await 1 0, .yield 5, .throw 9] :=
  fun h => absurd ((C30_exact true _ (by decide)).mpr h).2 (by decide)

end Cobalt.Gen
