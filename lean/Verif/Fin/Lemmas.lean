import Verif.Fin.Spec
/-!
# Lemmas about the end of coroutines
-/
namespace Cobalt.Fin

/-- States before the end. -/
structure Going (k : Kind) (s : St) : Prop where
  kind : s.kind = k
  frame : s.frame = .alive
  thrown : s.thrown = []
  resumed : s.resumed = 0
  destroyed : s.destroyed = 0
  owned : s.awaiter = true → s.owner = true
  who : s.owner = true → k.owned = true
  with_ : k = .with_ → s.owner = true

theorem going_init (k : Kind) : Going k (init k) :=
  ⟨rfl, rfl, rfl, rfl, rfl, fun h => (nomatch h), fun h => h, fun h => by rw [h]; rfl⟩

theorem Going.step {k : Kind} {s : St} (h : Going k s) {e : Ev} (he : isEnd e = false) :
    Going k (s.step e) := by
  obtain ⟨h1, h2, h3, h4, h5, h6, h7, h8⟩ := h
  cases e with
  | detach =>
    simp only [St.step]
    split
    · rename_i hg
      simp only [Bool.and_eq_true, decide_eq_true_eq, Bool.not_eq_true'] at hg
      refine ⟨h1, h2, h3, h4, h5, fun ha => ?_, fun ho => ?_, fun hk => ?_⟩
      · have : s.awaiter = true := ha
        rw [hg.2] at this; cases this
      · cases ho
      · exact absurd (h1.trans hk) hg.1
    · exact ⟨h1, h2, h3, h4, h5, h6, h7, h8⟩
  | await =>
    simp only [St.step]
    split
    · rename_i hg
      simp only [Bool.and_eq_true] at hg
      exact ⟨h1, h2, h3, h4, h5, fun _ => hg.1.1, h7, h8⟩
    · exact ⟨h1, h2, h3, h4, h5, h6, h7, h8⟩
  | awaiterGoesOn =>
    simp only [St.step, h2]
    exact ⟨h1, h2, h3, h4, h5, h6, h7, h8⟩
  | ret => cases he
  | throws e => cases he

theorem going_run (k : Kind) (es : List Ev) (he : ∀ e ∈ es, isEnd e = false) :
    Going k (run k es) := by
  suffices ∀ s, Going k s → Going k (es.foldl St.step s) from this _ (going_init k)
  induction es with
  | nil => exact fun _ h => h
  | cons e es ih =>
    exact fun s h => ih (fun e' h' => he e' (List.mem_cons_of_mem _ h')) _
      (h.step (he e (by simp)))

/-- A history that ends, split. -/
theorem split (es : List Ev) (h : ending es ≠ none) :
    ∃ a e b, es = a ++ e :: b ∧ (∀ x ∈ a, isEnd x = false) ∧ isEnd e = true ∧
      ending es = (match e with | .throws n => some (some n) | _ => some none) ∧
      (es.takeWhile fun e => !isEnd e) = a := by
  induction es with
  | nil => exact absurd rfl h
  | cons x es ih =>
    cases x with
    | ret => exact ⟨[], .ret, es, rfl, by simp, rfl, rfl, rfl⟩
    | throws n => exact ⟨[], .throws n, es, rfl, by simp, rfl, rfl, rfl⟩
    | detach | await | awaiterGoesOn =>
      obtain ⟨a, e, b, h1, h2, h3, h4, h5⟩ := ih h
      refine ⟨_ :: a, e, b, by rw [h1]; rfl, ?_, h3, h4, congrArg (List.cons _) h5⟩
      intro y hy
      rcases List.mem_cons.mp hy with rfl | hy
      · rfl
      · exact h2 y hy

/-- States after the end. -/
structure Over (s t : St) : Prop where
  frame : t.frame = s.frame ∧ t.destroyed = s.destroyed ∨
    s.frame = .parked ∧ t.frame = .destroyed ∧ t.destroyed = s.destroyed + 1
  thrown : t.thrown = s.thrown
  awaiter : t.awaiter = s.awaiter
  resumed : t.resumed = s.resumed

theorem Over.step {s t : St} (h : Over s t) (hs : s.frame ≠ .alive) (e : Ev) :
    Over s (t.step e) := by
  have ht : t.frame ≠ .alive := by
    rcases h.frame with hf | hf
    · rw [hf.1]; exact hs
    · rw [hf.2.1]; simp
  obtain ⟨h1, h2, h3, h4⟩ := h
  cases e with
  | detach =>
    simp only [St.step]
    split
    · exact ⟨h1, h2, h3, h4⟩
    · exact ⟨h1, h2, h3, h4⟩
  | await => simp only [St.step, ht, decide_false, Bool.and_false]; exact ⟨h1, h2, h3, h4⟩
  | awaiterGoesOn =>
    simp only [St.step]
    split
    · rename_i hp
      refine ⟨?_, h2, h3, h4⟩
      rcases h1 with h1 | h1
      · exact .inr ⟨h1.1 ▸ hp, rfl, by simp [St.destroy, h1.2]⟩
      · rw [h1.2.1] at hp; cases hp
    · exact ⟨h1, h2, h3, h4⟩
  | ret => simp only [St.step, ht, if_false]; exact ⟨h1, h2, h3, h4⟩
  | throws e => simp only [St.step, ht, if_false]; exact ⟨h1, h2, h3, h4⟩

theorem over_run (s : St) (hs : s.frame ≠ .alive) (es : List Ev) : Over s (es.foldl St.step s) := by
  suffices ∀ t, Over s t → Over s (es.foldl St.step t) from
    this s ⟨.inl ⟨rfl, rfl⟩, rfl, rfl, rfl⟩
  induction es with
  | nil => exact fun _ h => h
  | cons e es ih => exact fun t h => ih _ (h.step hs e)

/-- The end of a coroutine whose body returns, or whose exception is kept. -/
structure Ended (k : Kind) (s : St) (x : List (Nat × Place)) : Prop where
  frame : s.frame = .destroyed ∧ s.destroyed = 1 ∨ s.frame = .parked ∧ s.destroyed = 0
  thrown : s.thrown = x
  awaiter : s.awaiter = false
  once : s.resumed ≤ 1

theorem final_ended {k : Kind} {s : St} (h1 : s.kind = k) (h4 : s.resumed = 0)
    (h5 : s.destroyed = 0) (h6 : s.awaiter = true → k.owned = true) :
    Ended k s.final s.thrown := by
  cases ha : s.awaiter <;> cases k <;>
    first
    | (exact absurd (h6 ha) (by decide))
    | (refine ⟨?_, ?_, ?_, ?_⟩ <;>
        simp [St.final, h1, St.destroy, St.resumeAwaiter, ha, h4, h5])

theorem Ended.over {k : Kind} {s t : St} {x : List (Nat × Place)} (h : Ended k s x)
    (ho : Over s t) : Ended k t x := by
  refine ⟨?_, ho.thrown.trans h.thrown, ho.awaiter.trans h.awaiter, ho.resumed ▸ h.once⟩
  rcases ho.frame with hf | hf <;> rcases h.frame with hg | hg
  · exact .inl ⟨hf.1.trans hg.1, hf.2.trans hg.2⟩
  · exact .inr ⟨hf.1.trans hg.1, hf.2.trans hg.2⟩
  · rw [hg.1] at hf; cases hf.1
  · exact .inl ⟨hf.2.1, by rw [hf.2.2, hg.2]⟩

theorem Ended.dead {k : Kind} {s : St} {x : List (Nat × Place)} (h : Ended k s x) :
    s.frame ≠ .alive := by
  rcases h.frame with hf | hf <;> rw [hf.1] <;> simp

end Cobalt.Fin
