import Verif.Chan.DtorSpec
import Verif.Chan.PropsClose
/-!
# Lemmas about the destructor of a channel
-/
namespace Cobalt.Chan

variable {place : Tok → Place}

theorem D.turns_nil {d : D} (h : d.q = []) (n : Nat) : d.turns place n = d := by
  induction n with
  | zero => rfl
  | succ n ih =>
    have : d.turn place = d := by unfold D.turn; rw [h]
    rw [D.turns, this, ih]

theorem D.turns_fix {d : D} (h : d.turn place = d) (n : Nat) : d.turns place n = d := by
  induction n with
  | zero => rfl
  | succ n ih => rw [D.turns, h, ih]

theorem D.drains_iff (d : D) : d.Drains place ↔ d.q = [] ∨ (d.turn place).Drains place := by
  refine ⟨fun ⟨n, hn⟩ => ?_, fun h => ?_⟩
  · cases n with
    | zero => exact .inl hn
    | succ n => exact .inr ⟨n, hn⟩
  · rcases h with h | ⟨n, hn⟩
    · exact ⟨0, h⟩
    · exact ⟨n + 1, hn⟩

/-- The loop does nothing more: it does not end. -/
theorem D.stuck {d : D} {t : Tok} {r : List Tok} (hq : d.q = t :: r) (hw : d.waiting t = false) :
    ¬ d.Drains place := by
  rintro ⟨n, hn⟩
  rw [D.turns_fix (by unfold D.turn; rw [hq]; simp [hw]), hq] at hn
  cases hn

/-- Operations that nobody waits for, and that do not live in a combinator, stay. -/
theorem D.stale_turn {d : D} {t : Tok} (hw : d.waiting t = false) (hp : ∀ g, place t ≠ .ref g)
    (hm : t ∈ d.q) : (d.turn place).waiting t = false ∧ t ∈ (d.turn place).q := by
  unfold D.turn
  split
  · exact ⟨hw, hm⟩
  · rename_i u r hq
    split
    · rename_i hu
      have hr : t ∈ r := by
        rw [hq] at hm
        rcases List.mem_cons.mp hm with rfl | h
        · rw [hw] at hu; cases hu
        · exact h
      split
      · exact ⟨hw, hr⟩
      · refine ⟨hw, ?_⟩
        simp only [D.leave]
        split
        · exact List.mem_filter.mpr ⟨hr, by simpa using hp _⟩
        · exact hr
      · refine ⟨?_, ?_⟩
        · simp only [D.leave]; split
          · rfl
          · exact hw
        · simp only [D.leave]
          split
          · exact List.mem_filter.mpr ⟨hm, by simpa using hp _⟩
          · exact hm
    · exact ⟨hw, hm⟩

theorem D.stale {t : Tok} (hp : ∀ g, place t ≠ .ref g) :
    ∀ (n : Nat) (d : D), d.waiting t = false → t ∈ d.q → t ∈ (d.turns place n).q
  | 0, _, _, hm => hm
  | n + 1, _, hw, hm => D.stale hp n _ (D.stale_turn hw hp hm).1 (D.stale_turn hw hp hm).2

/-- As `Consistent`, for all operations. -/
def D.Counted (d : D) (place : Tok → Place) : Prop :=
  ∀ g, (d.q.filter fun t => (place t).group = some g).length ≤ d.live g

theorem D.Consistent.counted {d : D} (h : d.Consistent place) (hw : d.Waited) :
    d.Counted place := by
  intro g
  have := h g
  rwa [List.filter_congr (q := fun t => decide ((place t).group = some g))] at this
  intro t ht
  simp [hw t ht]

/-- With all operations waited for, the destructor returns exactly if `Last`, and then it has
destroyed all coroutines, in their order. -/
theorem D.drains (q : List Tok) : ∀ d : D, d.q = q → d.q.Nodup → d.Waited → d.Counted place →
    (d.Drains place ↔ d.Last place) ∧
    (d.Last place → ∃ n, (d.turns place n).q = [] ∧
      (d.turns place n).killed = d.killed ++ q) := by
  induction q with
  | nil =>
    intro d hq _ _ _
    refine ⟨⟨fun _ a t b g h _ => ?_, fun _ => ⟨0, hq⟩⟩, fun _ => ⟨0, hq, by simp [D.turns]⟩⟩
    rw [hq] at h
    simp at h
  | cons t r ih =>
    intro d hq hn hw hc
    have hwt : d.waiting t = true := hw t (by rw [hq]; simp)
    rw [hq] at hn
    have hwr : ∀ u ∈ r, d.waiting u = true := fun u hu => hw u (by rw [hq]; simp [hu])
    -- what is left to show for a turn that leaves `r`
    have go : ∀ d' : D, d.turn place = d' → d'.q = r → d'.Waited → d'.Counted place →
        d'.killed = d.killed ++ [t] → (d'.Last place ↔ d.Last place) →
        (d.Drains place ↔ d.Last place) ∧
        (d.Last place → ∃ n, (d.turns place n).q = [] ∧
          (d.turns place n).killed = d.killed ++ t :: r) := by
      intro d' h1 h2 h3 h4 h5 h6
      have := ih d' h2 (by rw [h2]; exact (List.nodup_cons.mp hn).2) h3 h4
      refine ⟨?_, fun hl => ?_⟩
      · rw [D.drains_iff, h1, this.1, h6]
        refine ⟨fun h => h.resolve_left (by rw [hq]; simp), .inr⟩
      · obtain ⟨n, hn1, hn2⟩ := this.2 (h6.mpr hl)
        refine ⟨n + 1, ?_, ?_⟩
        · rw [D.turns, h1]; exact hn1
        · rw [D.turns, h1, hn2, h5]; simp
    cases hp : place t with
    | own =>
      refine go { d with q := r, killed := d.killed ++ [t] }
        (by unfold D.turn; rw [hq]; simp only [hwt, if_true, hp]) rfl hwr ?_ rfl ?_
      · intro g
        have := hc g
        rw [hq, List.filter_cons] at this
        simpa [hp, Place.group] using this
      · constructor
        · intro hl a u b g hab hu
          cases a with
          | nil =>
            rw [hq] at hab
            obtain ⟨rfl, -⟩ := List.cons.inj hab
            rw [hp] at hu; cases hu
          | cons x a =>
            rw [hq] at hab
            obtain ⟨rfl, hab'⟩ := List.cons.inj hab
            have := hl a u b g hab' hu
            simpa [List.filter_cons, hp] using this
        · intro hl a u b g hab hu
          have := hl (t :: a) u b g (by rw [hq]; exact congrArg _ hab) hu
          simpa [List.filter_cons, hp] using this
    | fork g =>
      have hcg : 1 + (r.filter fun u => (place u).group = some g).length ≤ d.live g := by
        have := hc g
        rw [hq, List.filter_cons_of_pos (by rw [hp]; exact decide_eq_true rfl), List.length_cons] at this
        omega
      -- no operation lives in `g` if its last child goes
      have hfil : d.live g - 1 = 0 → r.filter (fun u => place u ≠ .ref g) = r := by
        intro h0
        rw [List.filter_eq_self]
        intro u hu
        have h1 : (r.filter fun u => (place u).group = some g).length = 0 := by omega
        rw [List.length_eq_zero_iff, List.filter_eq_nil_iff] at h1
        have := h1 u hu
        simp only [decide_eq_true_eq] at this ⊢
        exact fun h => this (by rw [h]; rfl)
      refine go (({ d with q := r, killed := d.killed ++ [t] } : D).leave place g)
        (by unfold D.turn; rw [hq]; simp only [hwt, if_true, hp]) ?_ ?_ ?_ rfl ?_
      · simp only [D.leave]
        split
        · exact hfil (by assumption)
        · rfl
      · intro u hu
        simp only [D.leave] at hu ⊢
        split at hu
        · exact hwr u (List.mem_filter.mp hu).1
        · exact hwr u hu
      · intro g'
        have hq' : (({ d with q := r, killed := d.killed ++ [t] } : D).leave place g).q = r := by
          simp only [D.leave]
          split
          · exact hfil (by assumption)
          · rfl
        rw [hq']
        simp only [D.leave, upd]
        split
        · rename_i he; subst he; omega
        · rename_i he
          have := hc g'
          rw [hq, List.filter_cons] at this
          have hne : ¬ (place t).group = some g' := by
            rw [hp]; simp only [Place.group, Option.some.injEq]; exact fun h => he h.symm
          simpa [hne] using this
      · have hq' : (({ d with q := r, killed := d.killed ++ [t] } : D).leave place g).q = r := by
          simp only [D.leave]
          split
          · exact hfil (by assumption)
          · rfl
        constructor
        · intro hl a u b g' hab hu
          cases a with
          | nil =>
            rw [hq] at hab
            obtain ⟨rfl, -⟩ := List.cons.inj hab
            rw [hp] at hu; cases hu
          | cons x a =>
            rw [hq] at hab
            obtain ⟨rfl, hab'⟩ := List.cons.inj hab
            have := hl a u b g' (hq'.trans hab') hu
            simp only [D.leave, upd] at this
            split at this
            · rename_i he; subst he
              simp only [List.filter_cons, hp, decide_true, if_true, List.length_cons]
              omega
            · rename_i he
              have hne : ¬ place t = .fork g' := by
                rw [hp]; simp only [Place.fork.injEq]; exact fun h => he h.symm
              simpa [List.filter_cons, hne] using this
        · intro hl a u b g' hab hu
          have := hl (t :: a) u b g' (by rw [hq]; rw [hq'] at hab; exact congrArg _ hab) hu
          simp only [D.leave, upd]
          split
          · rename_i he; subst he
            simp only [List.filter_cons, hp, decide_true, if_true, List.length_cons] at this
            omega
          · rename_i he
            have hne : ¬ place t = .fork g' := by
              rw [hp]; simp only [Place.fork.injEq]; exact fun h => he h.symm
            simpa [List.filter_cons, hne] using this
    | ref g =>
      have hcg : 1 + (r.filter fun u => (place u).group = some g).length ≤ d.live g := by
        have := hc g
        rw [hq, List.filter_cons_of_pos (by rw [hp]; exact decide_eq_true rfl), List.length_cons] at this
        omega
      by_cases h1 : d.live g = 1
      · -- the last child: the combinator goes, with this operation
        have hr0 : ∀ u ∈ r, (place u).group ≠ some g := by
          have h0 : (r.filter fun u => (place u).group = some g).length = 0 := by omega
          rw [List.length_eq_zero_iff, List.filter_eq_nil_iff] at h0
          intro u hu h
          exact h0 u hu (by simpa using h)
        have hq' : ∀ w k, (({ d with waiting := w, killed := k } : D).leave place g).q = r := by
          intro w k
          simp only [D.leave, h1, Nat.sub_self, if_true, hq, List.filter_cons, hp]
          simp only [ne_eq, not_true_eq_false, decide_false, Bool.false_eq_true, if_false]
          rw [List.filter_eq_self]
          intro u hu
          simp only [decide_eq_true_eq]
          exact fun h => hr0 u hu (by rw [h]; rfl)
        refine go (({ d with
           waiting := fun u => if u = t then false else d.waiting u
           killed := d.killed ++ [t] } : D).leave place g)
          (by unfold D.turn; rw [hq]; simp only [hwt, if_true, hp]) (hq' _ _) ?_ ?_ rfl ?_
        · intro u hu
          rw [hq'] at hu
          simp only [D.leave]
          split
          · rename_i he; subst he
            exact absurd hu (List.nodup_cons.mp hn).1
          · exact hwr u hu
        · intro g'
          rw [hq']
          simp only [D.leave, upd]
          split
          · rename_i he; subst he; omega
          · rename_i he
            have := hc g'
            rw [hq, List.filter_cons] at this
            have hne : ¬ (place t).group = some g' := by
              rw [hp]; simp only [Place.group, Option.some.injEq]; exact fun h => he h.symm
            simpa [hne] using this
        · constructor
          · intro hl a u b g' hab hu
            cases a with
            | nil =>
              rw [hq] at hab
              obtain ⟨rfl, -⟩ := List.cons.inj hab
              rw [hp] at hu; cases hu
              simpa using h1
            | cons x a =>
              rw [hq] at hab
              obtain ⟨rfl, hab'⟩ := List.cons.inj hab
              have := hl a u b g' ((hq' _ _).trans hab') hu
              simp only [D.leave, upd] at this
              have hne : g' ≠ g := by
                rintro rfl
                exact hr0 u (by rw [hab']; simp) (by rw [hu]; rfl)
              simpa [List.filter_cons, hp, hne] using this
          · intro hl a u b g' hab hu
            rw [hq'] at hab
            have := hl (t :: a) u b g' (by rw [hq]; exact congrArg _ hab) hu
            have hne : g' ≠ g := by
              rintro rfl
              exact hr0 u (by rw [hab]; simp) (by rw [hu]; rfl)
            simp only [D.leave, upd]
            simpa [List.filter_cons, hp, hne] using this
      · -- others are left: the operation stays, without handle
        have hnl : ¬ d.Last place := by
          intro hl
          have := hl [] t r g (by rw [hq]; rfl) hp
          exact h1 (by simpa using this)
        have hnd : ¬ d.Drains place := by
          rw [D.drains_iff]
          rintro (h | h)
          · rw [hq] at h; cases h
          · refine D.stuck (t := t) (r := r) ?_ ?_ h
            · unfold D.turn; rw [hq]
              simp only [hwt, if_true, hp, D.leave]
              rw [if_neg (by omega)]
            · unfold D.turn; rw [hq]
              simp only [hwt, if_true, hp, D.leave]
        exact ⟨⟨fun h => absurd h hnd, fun h => absurd h hnl⟩, fun h => absurd h hnl⟩

end Cobalt.Chan
