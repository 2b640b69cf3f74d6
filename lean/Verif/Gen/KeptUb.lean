import Verif.Gen.KeptStep
/-! When something undefined happens to a generator. Lemmas for `Gen/KeptProps.lean`. -/
namespace Cobalt.Gen

open Prom (upd upd_apply)

variable {p : Sp} {s : St}

/-- The one that waits for the generator has not handed its value over, and another one is there already. -/
def Clash (s : St) : Prop := ∃ a w, s.awaited = some a ∧ s.aw a = some w ∧ w.toPush = true ∧ s.pushed ≠ none

/-- When something undefined happens. -/
def Undef (s : St) : Ev → Prop
  | .initial => s.recv = true ∧ s.void = false ∧ s.result ≠ none ∧ Clash s
  | .yield _ => s.recv = true ∧ (s.result ≠ none ∧ s.buffer ≠ none ∨ s.void = false ∧ Clash s)
  | .ret _ => s.recv = true ∧ (s.result ≠ none ∧ s.buffer ≠ none ∨ Clash s)
  | .run => s.recv = true ∧ s.pushed = none
  | .await _ _ => s.exc = none ∧ if s.result ≠ none then s.pushed ≠ none
      else s.done = false ∧ s.awaited = none ∧ s.phase = .parked ∧ s.lazy = false ∧ s.pushed = none
  | .interrupt a => s.exc = none ∧ s.result ≠ none ∧ Clash s ∧ s.awaited ≠ some a
  | .get _ => s.exc = none ∧ s.result = none
  | .throw _ | .kill | .drop => False

/-- Who waits has an awaitable that was not interrupted. -/
structure Wait (s : St) : Prop where
  aw : ∀ a, s.awaited = some a → ∃ w, s.aw a = some w ∧ w.ex = none
  recv : s.recv = false → s.awaited = none

theorem Wait.init (v : Bool) : Wait { void := v } := ⟨by simp, by simp⟩

theorem give_awaited (s : St) (a : Nat) (w : Aw) (g : Got) : (s.give a w g).awaited = s.awaited := rfl

theorem resumeAw_awaited (s : St) (a : Nat) : (s.resumeAw a).awaited = s.awaited ∧ (s.resumeAw a).recv = s.recv := by
  unfold St.resumeAw St.takeResult St.give
  repeat' split
  all_goals exact ⟨rfl, rfl⟩

theorem wake_awaited (s : St) : s.wake.awaited = none ∧ s.wake.recv = s.recv := by
  unfold St.wake
  split
  · exact ⟨by assumption, rfl⟩
  · exact resumeAw_awaited _ _

theorem Wait.of_none (h : s.awaited = none) : Wait s := ⟨by simp [h], fun _ => h⟩

theorem resumeAw_aw (s : St) (a b : Nat) (h : b ≠ a) : (s.resumeAw a).aw b = s.aw b := by
  unfold St.resumeAw St.takeResult St.give
  repeat' split
  all_goals simp [h]

theorem Wait.step (h : Wait s) (hu : s.ub = false) {e : Ev} (hc : s.can e = true) : Wait (s.step e) := by
  unfold St.step
  rw [if_neg (by simp [hu, hc])]
  have hsus : ∀ t : St, t.aw = s.aw → t.awaited = s.awaited → t.recv = s.recv → Wait t.suspend := by
    intro t h1 h2 h3
    have ht : Wait t := ⟨by rw [h1, h2]; exact h.1, by rw [h2, h3]; exact h.2⟩
    unfold St.suspend
    split
    · exact ⟨ht.1, ht.2⟩
    · split
      · unfold St.bodyResume; split <;> exact ⟨ht.1, ht.2⟩
      · exact .of_none (wake_awaited _).1
  cases e with
  | initial => exact hsus _ (by split <;> rfl) (by split <;> rfl) (by split <;> rfl)
  | yield v =>
    dsimp only
    have hp : (s.put v).aw = s.aw ∧ (s.put v).awaited = s.awaited ∧ (s.put v).recv = s.recv := by
      unfold St.put; repeat' split
      all_goals exact ⟨rfl, rfl, rfl⟩
    split
    · split
      · exact ⟨by rw [hp.1, hp.2.1]; exact h.1, by rw [hp.2.1, hp.2.2]; exact h.2⟩
      · exact hsus _ hp.1 hp.2.1 hp.2.2
    · exact hsus _ rfl rfl rfl
  | ret v =>
    dsimp only
    have hp : (s.put v).aw = s.aw ∧ (s.put v).awaited = s.awaited ∧ (s.put v).recv = s.recv := by
      unfold St.put; repeat' split
      all_goals exact ⟨rfl, rfl, rfl⟩
    split
    · split
      · exact ⟨by rw [hp.1, hp.2.1]; exact h.1, by rw [hp.2.1, hp.2.2]; exact h.2⟩
      · exact .of_none (wake_awaited _).1
    · exact ⟨h.1, h.2⟩
  | throw x =>
    dsimp only
    split
    · exact .of_none (wake_awaited _).1
    · exact ⟨h.1, h.2⟩
  | kill =>
    dsimp only [St.kill]
    split
    · exact .of_none rfl
    · exact ⟨h.1, h.2⟩
  | run =>
    dsimp only [St.bodyResume]
    split
    · split <;> exact ⟨h.1, h.2⟩
    · exact ⟨h.1, h.2⟩
  | await a v =>
    have ha : s.recv = true ∧ s.aw a = none := by simpa [St.can] using hc
    have hne : ∀ b, s.awaited = some b → b ≠ a := by
      rintro b hb rfl
      obtain ⟨w, hw, -⟩ := h.1 b hb
      rw [ha.2] at hw; cases hw
    have key : ∀ t : St, t.awaited = s.awaited → t.recv = s.recv → (∀ b, b ≠ a → t.aw b = s.aw b) → Wait (t.resumeAw a) := by
      intro t h1 h2 h3
      obtain ⟨r1, r2⟩ := resumeAw_awaited t a
      refine ⟨fun b hb => ?_, fun hr => ?_⟩
      · rw [r1, h1] at hb
        rw [resumeAw_aw _ _ _ (hne b hb), h3 b (hne b hb)]
        exact h.1 b hb
      · rw [r1, h1]; exact h.2 (by rw [← h2, ← r2]; exact hr)
    dsimp only [St.await]
    split
    · exact key _ rfl rfl (by intro b hb; simp [hb])
    · split
      · exact key _ rfl rfl (by intro b hb; simp [hb])
      · have hfin : ∀ t : St, t.awaited = some a → t.recv = true → (∃ w, t.aw a = some w ∧ w.ex = none) → Wait t := by
          intro t h1 h2 h3
          exact ⟨fun b hb => by rw [h1] at hb; cases hb; exact h3, by simp [h2]⟩
        have hres : ∀ t : St, t.awaited = some a → t.recv = true → (∃ w, t.aw a = some w ∧ w.ex = none) → Wait t.bodyResume := by
          intro t h1 h2 h3
          unfold St.bodyResume; split
          · exact hfin _ h1 h2 h3
          · exact hfin _ h1 h2 h3
        repeat' split
        all_goals first
          | exact hres _ rfl ha.1 ⟨_, by simp; rfl, rfl⟩
          | exact hfin _ rfl ha.1 ⟨_, by simp; rfl, rfl⟩
  | interrupt a =>
    dsimp only [St.interrupt]
    split
    · exact ⟨h.1, h.2⟩
    · exact .of_none (wake_awaited _).1
  | get a =>
    have ha : s.recv = true ∧ s.aw a = none := by simpa [St.can] using hc
    have hne : ∀ b, s.awaited = some b → b ≠ a := by
      rintro b hb rfl
      obtain ⟨w, hw, -⟩ := h.1 b hb
      rw [ha.2] at hw; cases hw
    have key : ∀ (t : St) (g : Got), t.awaited = s.awaited → t.recv = s.recv → t.aw = s.aw →
        Wait (t.give a { push := 0, toPush := false } g) := by
      intro t g h1 h2 h3
      refine ⟨fun b hb => ?_, fun hr => ?_⟩
      · have hb' : s.awaited = some b := by rw [← h1]; exact hb
        obtain ⟨w, hw⟩ := h.1 b hb'
        refine ⟨w, ?_, hw.2⟩
        simp [St.give, hne b hb', h3, hw.1]
      · exact h1.trans (h.2 (h2.symm.trans hr))
    dsimp only [St.get]
    split
    · exact key _ _ rfl rfl rfl
    · split
      · exact ⟨h.1, h.2⟩
      · exact key _ _ rfl rfl rfl
  | drop => exact .of_none rfl

theorem resumeAw_ub {a : Nat} {w : Aw} (hu : s.ub = false) (hw : s.aw a = some w) :
    (s.resumeAw a).ub = true ↔ w.ex = none ∧ s.exc = none ∧ s.result ≠ none ∧ w.toPush = true ∧ s.pushed ≠ none := by
  unfold St.resumeAw
  simp only [hw]
  cases w.ex <;> cases s.exc <;> cases s.result <;> cases w.toPush <;> cases s.pushed <;>
    simp [St.give, St.takeResult, hu]

theorem wake_ub (h : Wait s) (hu : s.ub = false) :
    s.wake.ub = true ↔ s.exc = none ∧ s.result ≠ none ∧ Clash s := by
  unfold St.wake
  cases ha : s.awaited with
  | none => simp [hu, Clash, ha]
  | some a =>
    obtain ⟨w, hw, hx⟩ := h.1 a ha
    dsimp only
    rw [resumeAw_ub (w := w) (by exact hu) (by exact hw)]
    simp only [Clash, ha, hx]
    constructor
    · rintro ⟨-, h1, h2, h3, h4⟩; exact ⟨h1, h2, a, w, rfl, hw, h3, h4⟩
    · rintro ⟨h1, h2, b, w', e1, e2, h3, h4⟩
      cases e1; rw [hw] at e2; cases e2
      exact ⟨trivial, h1, h2, h3, h4⟩

theorem bodyResume_ub (hu : s.ub = false) : s.bodyResume.ub = true ↔ s.pushed = none := by
  unfold St.bodyResume
  cases hp : s.pushed <;> simp [hu]

theorem suspend_ub (h : Wait s) (hu : s.ub = false) :
    s.suspend.ub = true ↔ s.recv = true ∧ s.void = false ∧ s.exc = none ∧ s.result ≠ none ∧ Clash s := by
  unfold St.suspend
  by_cases hr : s.recv = false
  · simp [hr, hu]
  · rw [if_neg hr]
    by_cases hp : s.pushed ≠ none ∧ (s.void = true ∨ s.result = none)
    · rw [if_pos hp, bodyResume_ub hu]
      constructor
      · intro h; exact absurd h hp.1
      · rintro ⟨-, h1, -, h2, -⟩
        rcases hp.2 with h | h
        · rw [h] at h1; cases h1
        · exact absurd h h2
    · rw [if_neg hp, wake_ub (s := { s with phase := .parked }) ⟨h.1, h.2⟩ hu]
      constructor
      · rintro ⟨h1, h2, h3⟩
        refine ⟨by simpa using hr, ?_, h1, h2, h3⟩
        obtain ⟨a, w, -, -, -, h5⟩ := h3
        cases hv : s.void with
        | false => rfl
        | true => exact absurd ⟨h5, .inl hv⟩ hp
      · rintro ⟨-, -, h1, h2, h3⟩; exact ⟨h1, h2, h3⟩

theorem clash_same {t : St} (h1 : t.awaited = s.awaited) (h2 : t.aw = s.aw) (h3 : t.pushed = s.pushed) : Clash t ↔ Clash s := by
  unfold Clash; rw [h1, h2, h3]

theorem put_fields (s : St) (v : Nat) (hu : s.ub = false) :
    ((s.put v).ub = true ↔ s.result ≠ none ∧ s.buffer ≠ none) ∧ (s.put v).awaited = s.awaited ∧ (s.put v).aw = s.aw ∧
      (s.put v).pushed = s.pushed ∧ (s.put v).recv = s.recv ∧ (s.put v).void = s.void ∧ (s.put v).exc = s.exc ∧
      (s.put v).result ≠ none := by
  unfold St.put
  cases hr : s.result <;> cases hb : s.buffer <;> simp [hu]

/-- Something undefined happens exactly then. -/
theorem step_ub (b : Basic p s) (h : Wait s) (hu : s.ub = false) {e : Ev} (hc : s.can e = true) :
    (s.step e).ub = true ↔ Undef s e := by
  unfold St.step
  rw [if_neg (by simp [hu, hc])]
  cases e with
  | initial =>
    have hp := can_running hc (.inl rfl)
    dsimp only [Undef]
    by_cases hr : s.recv = true
    · obtain ⟨-, he⟩ := b.busy (by simp [hp]) hr
      rw [if_pos hr, suspend_ub (s := { s with lazy := true }) ⟨h.1, h.2⟩ hu]
      rw [clash_same (s := s) (t := { s with lazy := true }) rfl rfl rfl]
      simp [hr, he]
    · rw [if_neg hr, suspend_ub h hu]
      simp [hr]
  | yield v =>
    have hp := can_running hc (.inr (.inl ⟨v, rfl⟩))
    dsimp only [Undef]
    obtain ⟨p1, p2, p3, p4, p5, p6, p7, p8⟩ := put_fields s v hu
    by_cases hr : s.recv = true
    · obtain ⟨-, he⟩ := b.busy (by simp [hp]) hr
      rw [if_pos hr]
      by_cases hf : (s.put v).ub = true
      · rw [if_pos hf]; simp [hf, hr, p1.mp hf]
      · rw [if_neg hf, suspend_ub ⟨by rw [p2, p3]; exact h.1, by rw [p5, p2]; exact h.2⟩ (by simpa using hf),
          clash_same p2 p3 p4, p5, p6, p7]
        have hf : ¬ (s.result ≠ none ∧ s.buffer ≠ none) := fun h => hf (p1.mpr h)
        simp only [hr, he, p8, true_and, ne_eq, not_false_eq_true]
        constructor
        · intro h; exact .inr h
        · rintro (h | h)
          · exact absurd h hf
          · exact h
    · rw [if_neg hr, suspend_ub h hu]
      simp [hr]
  | ret v =>
    have hp := can_running hc (.inr (.inr (.inl ⟨v, rfl⟩)))
    dsimp only [Undef]
    obtain ⟨p1, p2, p3, p4, p5, p6, p7, p8⟩ := put_fields s v hu
    by_cases hr : s.recv = true
    · obtain ⟨-, he⟩ := b.busy (by simp [hp]) hr
      rw [if_pos hr]
      by_cases hf : (s.put v).ub = true
      · rw [if_pos hf]; simp [hf, hr, p1.mp hf]
      · rw [if_neg hf]
        unfold St.finish
        rw [wake_ub (s := { s.put v with phase := .gone, done := true })
          ⟨by rw [show ({ s.put v with phase := .gone, done := true } : St).awaited = s.awaited from p2,
              show ({ s.put v with phase := .gone, done := true } : St).aw = s.aw from p3]; exact h.1,
            by rw [show ({ s.put v with phase := .gone, done := true } : St).awaited = s.awaited from p2,
              show ({ s.put v with phase := .gone, done := true } : St).recv = s.recv from p5]; exact h.2⟩ (by simpa using hf),
          clash_same (s := s) (t := { s.put v with phase := .gone, done := true }) p2 p3 p4]
        have hf : ¬ (s.result ≠ none ∧ s.buffer ≠ none) := fun h => hf (p1.mpr h)
        dsimp only
        rw [p7]
        simp only [hr, he, p8, true_and, ne_eq, not_false_eq_true]
        constructor
        · intro h; exact .inr h
        · rintro (h | h)
          · exact absurd h hf
          · exact h
    · rw [if_neg hr]
      simp [hr, hu]
  | throw x =>
    dsimp only [Undef]
    by_cases hr : s.recv = true
    · rw [if_pos hr]
      unfold St.finish
      rw [wake_ub (s := { s with exc := some (.user x), phase := .gone, done := true }) ⟨h.1, h.2⟩ hu]
      simp
    · rw [if_neg hr]; simp [hu]
  | kill =>
    dsimp only [Undef, St.kill]
    split <;> simp [hu]
  | run =>
    dsimp only [Undef]
    by_cases hr : s.recv = true
    · rw [if_pos hr, bodyResume_ub hu]; simp [hr]
    · rw [if_neg hr]; simp [hu, hr]
  | await a v =>
    have ha : s.recv = true ∧ s.aw a = none := by simpa [St.can] using hc
    dsimp only [Undef, St.await]
    by_cases hy : s.ready = true
    · have hy' : ({ s with aw := upd s.aw a (some { push := v }) } : St).ready = true := hy
      rw [if_pos hy', resumeAw_ub (w := { push := v }) (by exact hu) (by simp)]
      simp only [St.ready, Bool.or_eq_true, Option.isSome_iff_ne_none] at hy
      cases he : s.exc <;> cases hr : s.result <;> simp_all
    · have hy' : ¬ ({ s with aw := upd s.aw a (some { push := v }) } : St).ready = true := hy
      rw [if_neg hy']
      simp only [St.ready, Bool.or_eq_true, not_or, Bool.not_eq_true, Option.isSome_eq_false_iff, Option.isNone_iff_eq_none] at hy
      obtain ⟨⟨h1, h2⟩, h3⟩ := hy
      by_cases hw : s.awaited ≠ none
      · rw [if_pos hw, resumeAw_ub (w := { push := v, ex := some .alreadyAwaited }) (by exact hu) (by simp)]
        simp [hw, h2]
      · rw [if_neg hw]
        have hw : s.awaited = none := by simpa using hw
        by_cases hl : s.lazy = true ∧ s.pushed = none
        · rw [if_pos hl]
          by_cases hph : s.phase = .parked
          · rw [if_pos hph, bodyResume_ub (by exact hu)]; simp [hl.1, h2]
          · rw [if_neg hph]; simp [hu, hl.1, h2]
        · rw [if_neg hl]
          by_cases hph : s.phase = .parked
          · rw [if_pos hph, bodyResume_ub (by exact hu)]
            simp only [h1, h2, h3, hw, hph, true_and, ne_eq, not_true_eq_false, if_false]
            constructor
            · intro h; exact ⟨by cases hz : s.lazy with | false => rfl | true => exact absurd ⟨hz, h⟩ hl, h⟩
            · exact fun h => h.2
          · rw [if_neg hph]; simp [hu, hph, h2]
  | interrupt a =>
    dsimp only [Undef, St.interrupt]
    have ha : (s.recv = true ∧ (s.aw a).isSome) ∧ s.killed.contains a = false := by simpa [St.can] using hc
    obtain ⟨w, hw⟩ := Option.isSome_iff_exists.mp ha.1.2
    simp only [hw]
    by_cases hA : s.awaited = some a
    · have : ({ s with aw := upd s.aw a (some { w with ex := some .detached }) } : St).wake =
          ({ s with aw := upd s.aw a (some { w with ex := some .detached }), awaited := none } : St).resumeAw a := by
        unfold St.wake; simp only [hA]
      rw [this, resumeAw_ub (w := { w with ex := some .detached }) (by exact hu) (by simp)]
      simp [hA]
    · have hne : ∀ b, s.awaited = some b → b ≠ a := by rintro b hb rfl; exact hA hb
      rw [wake_ub (s := { s with aw := upd s.aw a (some { w with ex := some .detached }) })
        ⟨fun b hb => by simpa [hne b hb] using h.1 b hb, h.2⟩ hu]
      have : Clash ({ s with aw := upd s.aw a (some { w with ex := some .detached }) }) ↔ Clash s := by
        unfold Clash
        constructor
        · rintro ⟨b, w, h1, h2, h3⟩; exact ⟨b, w, h1, by simpa [hne b h1] using h2, h3⟩
        · rintro ⟨b, w, h1, h2, h3⟩; exact ⟨b, w, h1, by simpa [hne b h1] using h2, h3⟩
      rw [this]
      simp [hA]
  | get a =>
    dsimp only [Undef, St.get]
    cases he : s.exc <;> cases hr : s.result <;> simp [St.give, hu]
  | drop => simp [Undef, St.drop, hu]

end Cobalt.Gen
