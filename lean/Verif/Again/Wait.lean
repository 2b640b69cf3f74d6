import Verif.Again.Fair
import Verif.Again.Run
/-! A race of sources waits only while all of them make it wait. -/
namespace Cobalt.Again

open Comb (Cfg)

variable {S : Src} {I : S.σ → Prop}

theorem Good.ended {c : Cfg} (hc : Proper c) {s : St S} {evs : List Comb.Ev} (h : Good I c s evs) (i : Nat)
    (he : (s.comb.child i).ended = true) : s.comb.index ≠ none := by
  refine h.decided hc ?_
  intro hn
  obtain ⟨_, _, ha⟩ := h.all hc
  rw [ha.hist.ended i] at he
  unfold Comb.outcome at he
  rw [h.ends, hn] at he
  simp at he

theorem fair_step (hS : S.Ok I) {c : Cfg} (hc : Proper c) {s : St S} {evs : List Comb.Ev} (h : Good I c s evs)
    (hq : Comb.Fair c s.comb) {e : Ev S} (hcan : s.can c e = true) (hu : (s.step c e).ub = false)
    (hu' : (s.step c e).comb.ub = false) : Comb.Fair c (s.step c e).comb := by
  obtain ⟨_, _, ha⟩ := h.all hc
  have key : ∀ ce, s.comb.can c ce = true → (∀ i, ce ≠ .txn i) → (∀ i x d, ce ≠ .thrown i x d) →
      (s.comb.step c ce).ub = false → Comb.Fair c (s.comb.step c ce) :=
    fun ce h1 h2 h3 h4 => hq.step hc.ok hc.race ha (fun i => h.ended hc i) h1 h2 h3 h.plain h4
  have hk := h.cases hS hc hcan hu
  generalize s.step c e = t at hk hu'
  clear hu
  cases hk with
  | calm ce he hcan' =>
    refine key ce hcan' ?_ ?_ hu' <;> rcases he with ⟨-, ⟨d, rfl, -⟩ | ⟨rfl, -⟩ | ⟨rfl, -⟩ | ⟨ct, rfl, -⟩⟩ <;> simp
  | ready i p d g hi hI hg hcan' => exact key _ hcan' (by simp) (by simp) hu'
  | notReady i p d hi hI hl hw hcan' => exact key _ hcan' (by simp) (by simp) hu'
  | stays i b => exact hq
  | gives i b g hI hf hg hw hcan' => exact key _ hcan' (by simp) (by simp) hu'
  | cut i g hI hi hc' hg hw hcan' => exact key _ hcan' (by simp) (by simp) hu'
  | next => exact Comb.Fair.init c

theorem fair_steps (hS : S.Ok I) {c : Cfg} (hc : Proper c) : ∀ (es : List (Ev S)) {s : St S} {evs : List Comb.Ev},
    Good I c s evs → Comb.Fair c s.comb → Legal c s es → (s.steps c es).fine → Comb.Fair c (s.steps c es).comb
  | [], _, _, _, k, _, _ => k
  | e :: es, s, _, h, k, hl, hf => by
    have hf1 := fine_step hf
    obtain ⟨evs', h'⟩ := h.step hS hc hl.1 hf1.1 hf1.2
    exact fair_steps hS hc es h' (fair_step hS hc h k hl.1 hf1.1 hf1.2) hl.2 hf

/-- If all code of a race has returned and it is not over, all sources are awaited by it. -/
theorem awaits_all (hS : S.Ok I) {c : Cfg} (hc : Proper c) {s₀ : St S} (h₀ : Start I s₀) {es : List (Ev S)}
    (hl : Legal c s₀ es) (hm : Marked es) (hf : (s₀.steps c es).fine) (hs : (s₀.steps c es).comb.stack = [])
    (hp : (s₀.steps c es).comb.phase ≠ .before) (ho : ¬(s₀.steps c es).comb.over) {i : Nat} (hi : i < c.n) :
    S.waits ((s₀.steps c es).src i) = some (s₀.steps c es).round := by
  have h0 : Good I c s₀ [] := Good.start h₀ c
  obtain ⟨_, h⟩ := h0.steps hS hc es hl hf
  obtain ⟨_, _, ha⟩ := h.all hc
  have h1 := ((Sharp.start h₀ c).steps hS hc es h0 hl hm hf).hush
  have h2 := fair_steps hS hc es h0 (by rw [h₀.comb]; exact Comb.Fair.init c) hl hf
  have hn : (s₀.steps c es).comb.index = none := by
    cases hx : (s₀.steps c es).comb.index with
    | none => rfl
    | some j => exact absurd (h1.over ha (by rw [hx]; simp) hs) ho
  have := h2.waits ha (fun i => h.ended hc i) hn hs hp ((hc.ok.mem i).2 hi)
  rw [h.waits i, if_pos this]

end Cobalt.Again
