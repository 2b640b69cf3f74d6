import Verif.Comb.ExactLemmas
/-! # C59 exactly: when a combinator is touched after it has resumed its awaiter

`Frame.Goes`: a call made by a loop that forwards a cancellation or an interruption from outside has not
returned, and the loop looks at another child when it does. -/
namespace Cobalt.Comb

/-- Once the awaiter is resumed, nothing but returns can happen (`C13_resume_once`). They lead to undefined
behaviour exactly if one of the calls that have not returned comes from a loop that goes on. -/
theorem C59_exact {c : Cfg} (hc : c.Ok) {es : List Ev} (hl : Legal c {} es) (hu : (St.run c es).ub = false)
    (hp : (St.run c es).phase = .resumed) :
    (∃ m, (St.run c (es ++ List.replicate m (.ret false))).ub = true) ↔ ∃ f ∈ (St.run c es).stack, f.Goes c := by
  have hg := Gone.of_run hc hl hu hp
  have hr : ∀ m, St.run c (es ++ List.replicate m (.ret false)) =
      (St.run c es).steps c (List.replicate m (.ret false)) := by
    intro m; simp [St.run, St.steps]
  constructor
  · rintro ⟨m, hm⟩
    refine Classical.byContradiction fun hno => ?_
    have := hg.stays (c := c) m (fun f hf hgo => hno ⟨f, hf, hgo⟩)
    rw [hr, this] at hm; simp at hm
  · intro h
    obtain ⟨l, h⟩ := hg.reaches _ (Nat.le_refl _) h
    exact ⟨l, by rw [hr]; exact h⟩

/-- There is no other undefined behaviour: it happens only after the awaiter was resumed inside such a loop. -/
theorem C59_only {c : Cfg} (hc : c.Ok) (hn : c.n ≠ 0) {es : List Ev} (hl : Legal c {} es)
    (hu : (St.run c es).ub = true) :
    ∃ pre post, es = pre ++ post ∧ (St.run c pre).ub = false ∧ (St.run c pre).phase = .resumed ∧
      ∃ f ∈ (St.run c pre).stack, f.Goes c := by
  have ho : c.order ≠ [] := by
    intro h0
    have := (hc.mem 0).2 (by omega)
    rw [h0] at this; simp at this
  obtain ⟨pre, post, h1, -, h2⟩ := ub_prefix ho es hl rfl hu
  exact ⟨pre, post, h1, h2⟩

/-- The last child to be forwarded to may complete inside the call: nothing is touched after it. -/
theorem C59_last {c : Cfg} (hc : c.Ok) (hn : c.n ≠ 0) {es : List Ev} (hl : Legal c {} es)
    (h : ∀ pre post, es = pre ++ post → (St.run c pre).phase = .resumed → ∀ f ∈ (St.run c pre).stack, ¬ f.Goes c) :
    (St.run c es).ub = false := by
  cases hu : (St.run c es).ub with
  | false => rfl
  | true =>
    obtain ⟨pre, post, h1, -, h2, f, hf, hg⟩ := C59_only hc hn hl hu
    exact absurd hg (h pre post h1 h2 f hf)

/-- A `gather` of two is cancelled: the first ends inside its cancellation, then the second, the last one, inside
its own; the loop is at its end. -/
abbrev lastInside : List Ev :=
  [.begin, .notReady 0, .ret false, .notReady 1, .ret false, .cancel 1, .fin 0 (.err 1), .ret false, .fin 1 (.err 1)]

example : Legal (two .gather) {} lastInside ∧ (St.run (two .gather) lastInside).ub = false ∧
    (St.run (two .gather) lastInside).phase = .resumed ∧
    (St.run (two .gather) lastInside).stack = [.emit 1 .ext 1 0] ∧
    (St.run (two .gather) (lastInside ++ [.ret false])).stack = [] := by decide

example : ¬ Posted (two .gather) {} lastInside := by
  intro h
  exact h.2.2.2.2.2.2.1 0 (.err 1) rfl (by decide)

/-- The other way round it is: both end inside the cancellation of the first. -/
abbrev bothInside : List Ev :=
  [.begin, .notReady 0, .ret false, .notReady 1, .ret false, .cancel 1, .fin 0 (.err 1), .fin 1 (.err 1)]

example : Legal (two .gather) {} bothInside ∧ (St.run (two .gather) bothInside).ub = false ∧
    (St.run (two .gather) bothInside).phase = .resumed ∧
    (St.run (two .gather) bothInside).stack = [.emit 0 .ext 1 0] ∧
    (St.run (two .gather) (bothInside ++ [.ret false])).ub = true := by decide

end Cobalt.Comb
