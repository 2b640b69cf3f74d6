import Verif.Gen.Run
/-! What a generator gave and holds, in all histories. Lemmas for `Gen/KeptProps.lean`. -/
namespace Cobalt.Gen

open Prom (upd upd_apply)

/-- What the receiver holds, in the order in which it will be given: `await_resume` looks for an exception first
(detail/generator.hpp:267-318). -/
@[grind] def held (s : St) : List Got := optErr s.exc ++ (optVal s.result ++ optVal s.buffer)

/-- What was given and what is still held. -/
@[grind] def total (s : St) : List Got := (s.log.reverse.map Prod.snd).filter ofBody ++ held s

/-- Holds in all histories. -/
structure Basic (p : Sp) (s : St) : Prop where
  buf : s.result = none → s.buffer = none
  exc : ∀ e, s.exc = some e → ofBody (.err e) = true
  excD : s.recv = true → s.exc ≠ none → s.done = true
  gone : s.recv = true → s.done = true → s.phase = .gone
  dropped : p.dropped = !s.recv
  ex : ∀ a w e, s.aw a = some w → w.ex = some e → ofBody (.err e) = false ∧ e ≠ .returnedVoid

theorem Basic.init (v : Bool) : Basic {} { void := v } := by constructor <;> simp

variable {p : Sp} {s : St}

theorem give_total (s : St) (a : Nat) (w : Aw) (g : Got) :
    total (s.give a w g) = (s.log.reverse.map Prod.snd).filter ofBody ++ ((if ofBody g then [g] else []) ++ held s) := by
  unfold total St.give
  simp only [delivered_cons, List.append_assoc]
  rfl

/-- An answer to an await changes nothing but the order of what is given. -/
structure Calm (p : Sp) (s t : St) : Prop where
  basic : Basic p t
  total : total t = total s
  recv : t.recv = s.recv
  done : t.done = s.done

theorem Calm.rfl' (h : Basic p s) : Calm p s s := ⟨h, rfl, rfl, rfl⟩

theorem Calm.trans {t u : St} (h : Calm p s t) (k : Calm p t u) : Calm p s u :=
  ⟨k.basic, k.total.trans h.total, k.recv.trans h.recv, k.done.trans h.done⟩

theorem resumeAw_calm (h : Basic p s) (a : Nat) (hu : (s.resumeAw a).ub = false) : Calm p s (s.resumeAw a) := by
  obtain ⟨b1, b2, b3, b4, b5, b6⟩ := h
  unfold St.resumeAw at hu ⊢
  cases hw : s.aw a with
  | none => simp [hw] at hu
  | some w =>
    simp only [hw] at hu ⊢
    cases hx : w.ex with
    | some e =>
      simp only [hx]
      refine ⟨⟨b1, b2, b3, b4, b5, ?_⟩, ?_, rfl, rfl⟩
      · intro a' w' e' h1 h2
        simp only [St.give, upd_apply] at h1
        split at h1
        · cases h1; exact b6 _ _ _ hw h2
        · exact b6 _ _ _ h1 h2
      · rw [give_total, (b6 _ _ _ hw hx).1]; rfl
    | none =>
      simp only [hx] at hu ⊢
      have key : ∀ (t : St) (w' : Aw) (g : Got), t.aw = s.aw → w'.ex = none →
          ∀ a' w₁ e', (t.give a w' g).aw a' = some w₁ → w₁.ex = some e' → ofBody (.err e') = false ∧ e' ≠ .returnedVoid := by
        intro t w' g ht hn a' w₁ e' h1 h2
        simp only [St.give, upd_apply, ht] at h1
        split at h1
        · cases h1; rw [hn] at h2; cases h2
        · exact b6 _ _ _ h1 h2
      cases he : s.exc with
      | some e =>
        simp only []
        refine ⟨⟨b1, fun _ h => by simp [St.give] at h, fun _ h => by simp [St.give] at h, b4, b5,
          key _ _ _ rfl hx⟩, ?_, rfl, rfl⟩
        rw [give_total, b2 _ he]
        simp [total, held, he, optErr]
      | none =>
        simp only [he] at hu ⊢
        cases hr : s.result with
        | none =>
          simp only []
          refine ⟨⟨b1, b2, b3, b4, b5, key _ _ _ rfl hx⟩, ?_, rfl, rfl⟩
          rw [give_total]; rfl
        | some v =>
          simp only [hr] at hu ⊢
          have hk : ∀ (t : St) (w' : Aw), t.aw = s.aw → w'.ex = none → t.log = s.log → t.exc = s.exc → t.result = s.result →
              t.buffer = s.buffer → t.recv = s.recv → t.done = s.done → t.phase = s.phase →
              Calm p s (t.takeResult a w' v) := by
            intro t w' e1 e2 e3 e4 e5 e6 e7 e8 e9
            refine ⟨⟨fun _ => rfl, ?_, ?_, ?_, ?_, key _ _ _ e1 e2⟩, ?_, e7, e8⟩
            · intro e h; exact b2 e (by simpa [St.takeResult, St.give, e4] using h)
            · intro h1 h2
              simp [St.takeResult, St.give, e4, e7, e8] at h1 h2 ⊢
              exact b3 h1 h2
            · intro h1 h2
              simp [St.takeResult, St.give, e7, e8, e9] at h1 h2 ⊢
              rw [b4 h1 h2]; simp
            · simp [St.takeResult, St.give, e7, b5]
            · unfold St.takeResult
              rw [give_total]
              simp [total, held, e3, e4, e6, hr, he, optVal, optErr, ofBody]
          by_cases ht : w.toPush = true
          · rw [if_pos ht] at hu ⊢
            by_cases hp : s.pushed ≠ none
            · rw [if_pos hp] at hu; cases hu
            · rw [if_neg hp]
              exact hk _ _ rfl (by simp [hx]) rfl (by simp [he]) (by simp [hr]) rfl rfl rfl rfl
          · rw [if_neg ht]
            exact hk _ _ rfl (by simp [hx]) rfl (by simp [he]) (by simp [hr]) rfl rfl rfl rfl

theorem wake_calm (h : Basic p s) (hu : s.wake.ub = false) : Calm p s s.wake := by
  unfold St.wake at hu ⊢
  cases ha : s.awaited with
  | none => exact Calm.rfl' h
  | some a =>
    simp only [ha] at hu ⊢
    have h' : Basic p { s with awaited := none } := ⟨h.1, h.2, h.3, h.4, h.5, h.6⟩
    exact Calm.trans (t := { s with awaited := none }) ⟨h', rfl, rfl, rfl⟩ (resumeAw_calm h' a hu)

theorem bodyResume_calm (h : Basic p s) (hd : s.recv = true → s.done = false) (hu : s.bodyResume.ub = false) :
    Calm p s s.bodyResume := by
  unfold St.bodyResume at hu ⊢
  cases ha : s.pushed with
  | none => simp [ha] at hu
  | some v =>
    refine ⟨⟨h.1, h.2, h.3, fun h1 h2 => ?_, h.5, h.6⟩, rfl, rfl, rfl⟩
    rw [hd h1] at h2; cases h2

theorem suspend_calm (h : Basic p s) (hd : s.recv = true → s.done = false) (hu : s.suspend.ub = false) :
    Calm p s s.suspend := by
  unfold St.suspend at hu ⊢
  split
  · rename_i hr
    exact ⟨⟨h.1, h.2, h.3, fun h1 => (by simp [hr] at h1), h.5, h.6⟩, rfl, rfl, rfl⟩
  · rename_i hr
    rw [if_neg hr] at hu
    split
    · rename_i hp
      rw [if_pos hp] at hu
      exact bodyResume_calm h hd hu
    · rename_i hp
      rw [if_neg hp] at hu
      have h' : Basic p { s with phase := .parked } :=
        ⟨h.1, h.2, h.3, fun h1 h2 => (by rw [hd h1] at h2; cases h2), h.5, h.6⟩
      exact Calm.trans (t := { s with phase := .parked }) ⟨h', rfl, rfl, rfl⟩ (wake_calm h' hu)

theorem put_total (h : Basic p s) (v : Nat) (hu : (s.put v).ub = false) :
    Basic p (s.put v) ∧ total (s.put v) = total s ++ [.val v] ∧ (s.put v).recv = s.recv ∧ (s.put v).done = s.done := by
  unfold St.put at hu ⊢
  split
  · rename_i hr
    refine ⟨⟨fun h => (by cases h), h.2, h.3, h.4, h.5, h.6⟩, ?_, rfl, rfl⟩
    simp [total, held, hr, h.buf hr, optVal]
  · rename_i hr
    rw [if_neg hr] at hu
    split
    · rename_i hb
      refine ⟨⟨fun h => absurd h hr, h.2, h.3, h.4, h.5, h.6⟩, ?_, rfl, rfl⟩
      simp [total, held, hb, optVal]
    · rename_i hb
      rw [if_neg hb] at hu; cases hu

/-- Nothing is to be given any more that comes from the body. -/
theorem finish_calm (h : Basic p s) (hu : s.finish.ub = false) :
    Basic p s.finish ∧ total s.finish = total s ∧ s.finish.recv = s.recv ∧ s.finish.done = true := by
  unfold St.finish at hu ⊢
  have h' : Basic p { s with phase := .gone, done := true } :=
    ⟨h.1, h.2, fun _ _ => rfl, fun _ _ => rfl, h.5, h.6⟩
  have := wake_calm h' hu
  exact ⟨this.basic, this.total, this.recv, this.done⟩

end Cobalt.Gen
