import Verif.Nest.Spec
/-! # Lemmas on nested `with`s -/
namespace Cobalt.Nest

theorem tear_raises : ∀ (n : Nat) (c : Bool) (ins : List In), ∀ a ∈ (runTear n c ins).tr,
    ∃ x, a = .raise x
  | 0, _, _ => by simp [runTear]
  | _ + 1, true, _ => by simp [runTear]
  | _ + 1, false, [] => by simp [runTear]
  | n + 1, false, i :: ins => by
    simp only [runTear]
    split
    · simp
    · exact tear_raises n i.cancel ins

theorem raises_append (a b : List Act) : raises (a ++ b) = raises a ++ raises b := by
  simp [raises, List.filterMap_append]

theorem raises_cons (a : Act) (b : List Act) : raises (a :: b) = a.raised.toList ++ raises b := by
  unfold raises
  rw [List.filterMap_cons]
  cases a.raised <;> rfl

/-- A teardown that ends has raised what it ends with, and nothing else. -/
theorem tear_out : ∀ (n : Nat) (c : Bool) (ins : List In) (e : Option Nat),
    (runTear n c ins).out = some e → raises (runTear n c ins).tr = e.toList
  | 0, _, _, e, h => by simp [runTear] at h; subst h; rfl
  | _ + 1, true, _, e, h => by simp [runTear] at h; subst h; rfl
  | _ + 1, false, [], e, h => by simp [runTear] at h
  | n + 1, false, i :: ins, e, h => by
    simp only [runTear] at h ⊢
    split at h
    · rename_i x hx; simp at h; subst h; rfl
    · rename_i hx; exact tear_out n i.cancel ins e h

theorem run_tear_pending : ∀ (n : Nat) (c : Bool) (ins : List In),
    (runTear n c ins).out = none → (runTear n c ins).tr = []
  | 0, _, _, h => by simp [runTear] at h
  | _ + 1, true, _, h => by simp [runTear] at h
  | _ + 1, false, [], _ => by simp [runTear]
  | n + 1, false, i :: ins, h => by
    simp only [runTear] at h ⊢
    split at h
    · simp at h
    · rename_i hx; exact run_tear_pending n i.cancel ins h

/-- The four ways a `with` can go that is not awaited by a cancelled coroutine. -/
theorem with_cases {P : R → Prop} (i : Nat) (b : Prog) (t : Nat) (k : Prog) (ins : List In)
    (h1 : (b.run false ins).out = none → P ⟨.opened i :: (b.run false ins).tr, none,
      (b.run false ins).can, (b.run false ins).rest⟩)
    (h2 : ∀ e, (b.run false ins).out = some e → (runTear t false (b.run false ins).rest).out = none →
      P ⟨.opened i :: ((b.run false ins).tr ++ .tear i e :: (runTear t false (b.run false ins).rest).tr),
        none, (b.run false ins).can || (runTear t false (b.run false ins).rest).can,
        (runTear t false (b.run false ins).rest).rest⟩)
    (h3 : ∀ e e' x, (b.run false ins).out = some e →
      (runTear t false (b.run false ins).rest).out = some e' → first e e' = some x →
      P ⟨.opened i :: ((b.run false ins).tr ++ .tear i e ::
        ((runTear t false (b.run false ins).rest).tr ++ [.torn i])), some (some x),
        (b.run false ins).can || (runTear t false (b.run false ins).rest).can,
        (runTear t false (b.run false ins).rest).rest⟩)
    (h4 : (b.run false ins).out = some none →
      (runTear t false (b.run false ins).rest).out = some none →
      ∀ rk, rk = k.run ((b.run false ins).can || (runTear t false (b.run false ins).rest).can)
        (runTear t false (b.run false ins).rest).rest →
      P ⟨.opened i :: ((b.run false ins).tr ++ .tear i none ::
        ((runTear t false (b.run false ins).rest).tr ++ .torn i :: rk.tr)), rk.out,
        (b.run false ins).can || (runTear t false (b.run false ins).rest).can || rk.can, rk.rest⟩) :
    P ((Prog.with_ i b t k).run false ins) := by
  simp only [Prog.run]
  split
  · rename_i hb; exact h1 hb
  · rename_i e hb
    split
    · rename_i ht; exact h2 e hb ht
    · rename_i e' ht
      split
      · rename_i x hf; exact h3 e e' x hb ht hf
      · rename_i hf
        cases e with
        | some x => simp [first] at hf
        | none =>
          simp [first] at hf; subst hf
          exact h4 hb ht _ rfl

theorem bal_run : ∀ (p : Prog) (c : Bool) (ins : List In), ¬ Leaks (p.run c ins).tr →
    ((p.run c ins).out ≠ none → Bal (p.run c ins).tr) ∧ ∃ w, Bal ((p.run c ins).tr ++ w)
  | .done, c, ins, _ => by simp only [Prog.run]; exact ⟨fun _ => .nil, [], .nil⟩
  | .fail x, c, ins, _ => by
    simp only [Prog.run]; exact ⟨fun _ => .raise _ .nil, [], .raise _ .nil⟩
  | .op k, true, ins, _ => by
    simp only [Prog.run]; exact ⟨fun _ => .raise _ .nil, [], .raise _ .nil⟩
  | .op k, false, [], _ => by simp only [Prog.run]; exact ⟨fun _ => .nil, [], .nil⟩
  | .op k, false, i :: ins, h => by
    simp only [Prog.run] at h ⊢
    split at h
    · rename_i x hx; exact ⟨fun _ => .raise _ .nil, [], .raise _ .nil⟩
    · rename_i hx; exact bal_run k i.cancel ins h
  | .with_ i b t k, true, ins, h => by
    exact absurd ⟨i, by simp [Prog.run]⟩ h
  | .with_ i b t k, false, ins, h => by
    have hb := bal_run b false ins
    have hk := bal_run k
    revert h
    refine with_cases (P := fun r => ¬ Leaks r.tr → (r.out ≠ none → Bal r.tr) ∧ ∃ w, Bal (r.tr ++ w))
      i b t k ins ?_ ?_ ?_ ?_
    · intro ho hl
      obtain ⟨-, w, hw⟩ := hb (fun ⟨j, hj⟩ => hl ⟨j, by simp [hj]⟩)
      refine ⟨fun hc => absurd rfl hc, w ++ .tear i none :: ([] ++ .torn i :: []), ?_⟩
      have := Bal.block i none (t := []) hw (by simp) .nil
      simpa using this
    · intro e ho ht hl
      obtain ⟨w, -⟩ := hb (fun ⟨j, hj⟩ => hl ⟨j, by simp [hj]⟩)
      refine ⟨fun hc => absurd rfl hc, .torn i :: [], ?_⟩
      have := Bal.block i e (w (by rw [ho]; simp)) (tear_raises t false (b.run false ins).rest) .nil
      simpa using this
    · intro e e' x ho ht hf hl
      obtain ⟨w, -⟩ := hb (fun ⟨j, hj⟩ => hl ⟨j, by simp [hj]⟩)
      have := Bal.block i e (w (by rw [ho]; simp)) (tear_raises t false (b.run false ins).rest) .nil
      exact ⟨fun _ => this, [], by simpa using this⟩
    · intro ho ht rk hrk hl
      obtain ⟨w, -⟩ := hb (fun ⟨j, hj⟩ => hl ⟨j, by simp [hj]⟩)
      obtain ⟨k1, w', k2⟩ := hk ((b.run false ins).can || (runTear t false (b.run false ins).rest).can)
        (runTear t false (b.run false ins).rest).rest
        (by rw [← hrk]; exact fun ⟨j, hj⟩ => hl ⟨j, by simp [hj]⟩)
      rw [← hrk] at k1 k2
      have hb' := w (by rw [ho]; simp)
      have ht' := tear_raises t false (b.run false ins).rest
      refine ⟨fun hc => Bal.block i none hb' ht' (k1 hc), w', ?_⟩
      have := Bal.block i none hb' ht' k2
      simpa using this

theorem first_run : ∀ (p : Prog) (c : Bool) (ins : List In) (e : Option Nat),
    (p.run c ins).out = some e → (raises (p.run c ins).tr).head? = e
  | .done, c, ins, e, h => by simp only [Prog.run] at h ⊢; simp at h; subst h; rfl
  | .fail x, c, ins, e, h => by simp only [Prog.run] at h ⊢; simp at h; subst h; rfl
  | .op k, true, ins, e, h => by simp only [Prog.run] at h ⊢; simp at h; subst h; rfl
  | .op k, false, [], e, h => by simp [Prog.run] at h
  | .op k, false, i :: ins, e, h => by
    simp only [Prog.run] at h ⊢
    split at h
    · rename_i x hx; simp at h; subst h; rfl
    · rename_i hx; exact first_run k i.cancel ins e h
  | .with_ i b t k, true, ins, e, h => by simp only [Prog.run] at h ⊢; simp at h; subst h; rfl
  | .with_ i b t k, false, ins, e, h => by
    have hb := first_run b false ins
    have hk := first_run k
    revert h
    refine with_cases (P := fun r => r.out = some e → (raises r.tr).head? = e) i b t k ins ?_ ?_ ?_ ?_
    · intro _ h; cases h
    · intro _ _ _ h; cases h
    · intro e1 e2 x ho ht hf h
      have h1 := hb e1 ho
      have h2 := tear_out t false _ e2 ht
      simp at h; subst h
      simp only [raises_cons, raises_append, Act.raised, h2, List.head?_append, h1]
      cases e1 <;> simp [first] at hf ⊢
      · subst hf; simp
      · exact hf
    · intro ho ht rk hrk h
      have h1 := hb none ho
      have h2 := tear_out t false _ none ht
      simp only at h
      have h3 := hk _ _ e (by rw [← hrk]; exact h)
      rw [← hrk] at h3
      simp only [raises_cons, raises_append, Act.raised, h2, List.head?_append, h1, h3]
      simp

theorem tear_rest : ∀ (n : Nat) (c : Bool) (ins : List In), Honest ins →
    Honest (runTear n c ins).rest ∧ ((runTear n c ins).can = true →
      (runTear n c ins).out ≠ some none)
  | 0, _, _, h => by simp [runTear]; exact h
  | _ + 1, true, _, h => by simp [runTear]; exact h
  | _ + 1, false, [], h => by simp [runTear]; exact h
  | n + 1, false, i :: ins, h => by
    have h' : Honest ins := fun j hj => h j (by simp [hj])
    simp only [runTear]
    split
    · exact ⟨h', fun _ => by simp⟩
    · rename_i hx
      have hc : i.cancel = false := by
        cases hc : i.cancel with
        | false => rfl
        | true => exact absurd hx (h i (by simp) hc)
      rw [hc]
      obtain ⟨k1, k2⟩ := tear_rest n false ins h'
      exact ⟨k1, fun hr => k2 (by simpa using hr)⟩

theorem honest_run : ∀ (p : Prog) (ins : List In), Honest ins →
    ¬ Leaks (p.run false ins).tr ∧ Honest (p.run false ins).rest ∧
      ((p.run false ins).can = true → (p.run false ins).out ≠ some none)
  | .done, ins, h => by simp only [Prog.run]; exact ⟨by simp [Leaks], h, by simp⟩
  | .fail x, ins, h => by simp only [Prog.run]; exact ⟨by simp [Leaks], h, by simp⟩
  | .op k, [], h => by simp only [Prog.run]; exact ⟨by simp [Leaks], h, by simp⟩
  | .op k, i :: ins, h => by
    have h' : Honest ins := fun j hj => h j (by simp [hj])
    simp only [Prog.run]
    split
    · exact ⟨by simp [Leaks], h', fun _ => by simp⟩
    · rename_i hx
      have hc : i.cancel = false := by
        cases hc : i.cancel with
        | false => rfl
        | true => exact absurd hx (h i (by simp) hc)
      rw [hc]
      simpa using honest_run k ins h'
  | .with_ i b t k, ins, h => by
    obtain ⟨b1, b2, b3⟩ := honest_run b ins h
    obtain ⟨t1, t2⟩ := tear_rest t false _ b2
    have hk := honest_run k _ t1
    have hT := tear_raises t false (b.run false ins).rest
    have hT' : ∀ j, .leak j ∉ (runTear t false (b.run false ins).rest).tr := fun j hj => by
      obtain ⟨x, hx⟩ := hT _ hj; cases hx
    have hb' : ∀ j, .leak j ∉ (b.run false ins).tr := fun j hj => b1 ⟨j, hj⟩
    refine with_cases (P := fun r => ¬ Leaks r.tr ∧ Honest r.rest ∧
      (r.can = true → r.out ≠ some none)) i b t k ins ?_ ?_ ?_ ?_
    · intro ho
      exact ⟨fun ⟨j, hj⟩ => by simp [hb'] at hj, b2, fun _ => by simp⟩
    · intro e ho ht
      exact ⟨fun ⟨j, hj⟩ => by simp [hb', hT'] at hj, t1, fun _ => by simp⟩
    · intro e e' x ho ht hf
      exact ⟨fun ⟨j, hj⟩ => by simp [hb', hT'] at hj, t1, fun _ => by simp⟩
    · intro ho ht rk hrk
      have hbc : (b.run false ins).can = false := by
        cases hc : (b.run false ins).can with
        | false => rfl
        | true => exact absurd ho (b3 hc)
      have htc : (runTear t false (b.run false ins).rest).can = false := by
        cases hc : (runTear t false (b.run false ins).rest).can with
        | false => rfl
        | true => exact absurd ht (t2 hc)
      rw [hbc, htc] at hrk
      obtain ⟨k1, k2, k3⟩ := hk
      subst hrk
      refine ⟨fun ⟨j, hj⟩ => ?_, k2, fun hc => k3 (by simpa [hbc, htc] using hc)⟩
      have : .leak j ∉ (k.run false (runTear t false (b.run false ins).rest).rest).tr :=
        fun hj => k1 ⟨j, hj⟩
      simp [hb', hT'] at hj
      exact this (by simpa using hj)

theorem Bal.no_leak {w : List Act} (h : Bal w) : ¬ Leaks w := by
  induction h with
  | nil => simp [Leaks]
  | raise x _ ih => rintro ⟨j, hj⟩; simp at hj; exact ih ⟨j, hj⟩
  | block i e _ ht _ ihb ihw =>
    rintro ⟨j, hj⟩
    simp at hj
    rcases hj with hj | hj | hj
    · exact ihb ⟨j, hj⟩
    · obtain ⟨x, hx⟩ := ht _ hj; cases hx
    · exact ihw ⟨j, hj⟩

end Cobalt.Nest
