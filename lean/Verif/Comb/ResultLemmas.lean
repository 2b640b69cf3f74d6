import Verif.Comb.Quiet
import Verif.Comb.RaceHist
/-! Helpers for the properties of results. -/
namespace Cobalt.Comb

theorem filterMap_range {α : Type} (f : Nat → Option α) : ∀ n, (∀ i, i < n → (f i).isSome = true) →
    ((List.range n).filterMap f).length = n ∧ ∀ i, i < n → ((List.range n).filterMap f)[i]? = f i
  | 0, _ => by simp
  | n + 1, h => by
    obtain ⟨h1, h2⟩ := filterMap_range f n (fun i hi => h i (by omega))
    rw [List.range_succ, List.filterMap_append]
    obtain ⟨x, hx⟩ := Option.isSome_iff_exists.1 (h n (by omega))
    have hs : [n].filterMap f = [x] := by simp [hx]
    rw [hs]
    refine ⟨by simp [h1], fun i hi => ?_⟩
    by_cases hin : i < n
    · rw [List.getElem?_append_left (by omega)]; exact h2 i hin
    · have : i = n := by omega
      subst this
      rw [List.getElem?_append_right (by omega), h1]
      simp [hx]

theorem firstErr_none {es : List Ev} (h : firstErr es = none) {i : Nat} {x : Nat} : outcome es i ≠ some (.err x) := by
  intro ho
  unfold firstErr at h
  unfold outcome at ho
  rw [List.findSome?_eq_none_iff] at h
  obtain ⟨p, hp, h2⟩ := List.exists_of_findSome?_eq_some ho
  split at h2
  · simp only [Option.some.injEq] at h2
    have := h p hp
    rw [h2] at this; simp at this
  · simp at h2

/-- A race that is over has a winner, and it completed. -/
theorem race_winner {c : Cfg} (hc : c.Ok) {es : List Ev} (hk : c.kind = .race) (hl : Legal c {} es)
    (hu : (St.run c es).ub = false) (ho : (St.run c es).over) :
    ∃ i o, winner es = some i ∧ outcome es i = some o ∧ (St.run c es).index = some i := by
  have ha := All.run hc hl hu
  have hnb : (St.run c es).phase ≠ .before := by rcases ho with h | h <;> rw [h] <;> simp
  have hact : ∀ i, ((St.run c es).child i).active = false := by
    intro i
    obtain ⟨l, h1, h2, h3⟩ := ha.inv.uses
    rw [ha.inv.over ho] at h3
    have hnil : l = [] := List.eq_nil_of_length_eq_zero h3
    cases hx : ((St.run c es).child i).active
    · rfl
    · have := (h2 i).2 hx
      rw [hnil] at this; simp at this
  have key : ∀ i, (St.run c es).child i ≠ .idle → ∃ o, outcome es i = some o := by
    intro i hi
    apply Option.isSome_iff_exists.1
    rw [← ha.hist.ended i]
    have := hact i
    cases hx : (St.run c es).child i <;> simp_all [CS.active, CS.ended]
  obtain ⟨j, hj⟩ := ha.hist.some hnb
  obtain ⟨o, hoj⟩ := key j hj
  have hw : ∃ i, winner es = some i := by
    cases hx : winner es with
    | some i => exact ⟨i, rfl⟩
    | none =>
      exfalso
      unfold winner at hx
      rw [List.head?_eq_none_iff, List.filterMap_eq_nil_iff] at hx
      unfold outcome at hoj
      obtain ⟨p, hp, h2⟩ := List.exists_of_findSome?_eq_some hoj
      rw [List.mem_filterMap] at hp
      obtain ⟨e, he, h3⟩ := hp
      have := hx e he
      cases e <;> simp_all [Ev.ends, Ev.claims]
  obtain ⟨i, hi⟩ := hw
  have hix : (St.run c es).index = some i := by rw [ha.hist.race hk]; exact hi
  obtain ⟨o', ho'⟩ := key i (ha.hist.idx i hix)
  exact ⟨i, o', hi, ho', hix⟩

end Cobalt.Comb
