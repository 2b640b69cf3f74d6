import Verif.Again.Inv
/-! The invariants hold in every history. -/
namespace Cobalt.Again

open Comb (Cfg)

variable {S : Src} {I : S.σ → Prop}

/-- Nothing undefined has happened. -/
def St.fine (s : St S) : Prop := s.ub = false ∧ s.comb.ub = false

instance (s : St S) : Decidable s.fine := inferInstanceAs (Decidable (_ ∧ _))

theorem step_bad {c : Cfg} {s : St S} (h : ¬s.fine) (e : Ev S) : s.step c e = s := by
  unfold St.step
  rw [if_pos]
  unfold St.fine at h
  cases h1 : s.ub <;> cases h2 : s.comb.ub <;> simp_all

theorem steps_bad {c : Cfg} : ∀ (es : List (Ev S)) {s : St S}, ¬s.fine → s.steps c es = s
  | [], _, _ => rfl
  | e :: es, s, h => by
    show (s.step c e).steps c es = s
    rw [step_bad h e]; exact steps_bad es h

theorem fine_step {c : Cfg} {es : List (Ev S)} {s : St S} {e : Ev S} (h : (s.steps c (e :: es)).fine) :
    (s.step c e).fine := by
  by_cases hf : (s.step c e).fine
  · exact hf
  · rw [show s.steps c (e :: es) = (s.step c e).steps c es from rfl, steps_bad es hf] at h
    exact h

theorem Good.steps (hS : S.Ok I) {c : Cfg} (hc : Proper c) : ∀ (es : List (Ev S)) {s : St S} {evs : List Comb.Ev},
    Good I c s evs → Legal c s es → (s.steps c es).fine → ∃ evs', Good I c (s.steps c es) evs'
  | [], _, evs, h, _, _ => ⟨evs, h⟩
  | e :: es, s, _, h, hl, hf => by
    have hf1 := fine_step hf
    obtain ⟨evs', h'⟩ := h.step hS hc hl.1 hf1.1 hf1.2
    exact Good.steps hS hc es h' hl.2 hf

theorem Sharp.steps (hS : S.Ok I) {c : Cfg} (hc : Proper c) : ∀ (es : List (Ev S)) {s : St S} {evs : List Comb.Ev},
    Good I c s evs → Sharp c s → Legal c s es → Marked es → (s.steps c es).fine → Sharp c (s.steps c es)
  | [], _, _, _, k, _, _, _ => k
  | e :: es, s, _, h, k, hl, hm, hf => by
    have hf1 := fine_step hf
    obtain ⟨evs', h'⟩ := h.step hS hc hl.1 hf1.1 hf1.2
    exact Sharp.steps hS hc es h' (k.step hS hc h hl.1 (hm e (by simp)) hf1.1 hf1.2) hl.2
      (fun x hx => hm x (by simp [hx])) hf

/-- What races give: the first thing handed over to them. -/
theorem results (hS : S.Ok I) {c : Cfg} (hc : Proper c) {s₀ : St S} (h₀ : Start I s₀) {es : List (Ev S)}
    (hl : Legal c s₀ es) (hf : (s₀.steps c es).fine) :
    (s₀.steps c es).gave.map Prod.fst = (List.range (s₀.steps c es).round).reverse ∧
    ∀ r res, (r, res) ∈ (s₀.steps c es).gave →
      ∃ i g, (handedTo (s₀.steps c es) r).getLast? = some (i, g) ∧ res = given i (S.out g) := by
  obtain ⟨_, h⟩ := (Good.start h₀ c).steps hS hc es hl hf
  exact ⟨h.gave, h.old⟩

/-- Nothing else of substance is handed over to a race, if `done()` says yes. -/
theorem lossless (hS : S.Ok I) {c : Cfg} (hc : Proper c) {s₀ : St S} (h₀ : Start I s₀) {es : List (Ev S)}
    (hl : Legal c s₀ es) (hm : Marked es) (hf : (s₀.steps c es).fine) {r i : Nat} {g : S.γ}
    (hg : (i, g) ∈ handedTo (s₀.steps c es) r) (hcut : S.cut g = false) :
    (handedTo (s₀.steps c es) r).getLast? = some (i, g) ∧
    ∀ x ∈ (handedTo (s₀.steps c es) r).dropLast, S.cut x.2 = true := by
  have h1 := ((Sharp.start h₀ c).steps hS hc es (Good.start h₀ c) hl hm hf).cut r
  refine ⟨?_, h1⟩
  have hne : handedTo (s₀.steps c es) r ≠ [] := List.ne_nil_of_mem hg
  rw [← List.dropLast_concat_getLast hne] at hg
  rcases List.mem_append.1 hg with hg | hg
  · have := h1 _ hg; rw [hcut] at this; simp at this
  · rw [List.mem_singleton.1 hg, List.getLast?_eq_some_getLast hne]

end Cobalt.Again
