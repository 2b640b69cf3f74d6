import Verif.Main.Lemmas
/-!
# Properties of `co_main`
-/
namespace Cobalt.Main

/-- **C50**, in full: in every run nothing touches the destroyed coroutine, the cancellations
emitted are those the handled signals mean, and once `co_main` has returned the loop ends,
leaving the value returned as the result. -/
def C50 : Prop := ∀ es : List Ev,
  (St.run es).ub = false ∧
  (∃ hs, hs <+: raised es ∧ (St.run es).emitted = hs.map meaning) ∧
  (∀ v, (St.run es).returned = some v →
    (St.run (es ++ goOn (St.run es).queue.length)).Ended ∧
    (St.run (es ++ goOn (St.run es).queue.length)).res = v)

theorem run_append (a b : List Ev) : St.run (a ++ b) = b.foldl St.step (St.run a) := by
  simp [St.run, List.foldl_append]

/-- The signals are handled in the order they were raised, none is lost or made up, and each
one handled has emitted what it means. `SIGINT` and `SIGTERM` have no other effect. -/
theorem C50_signals (es : List Ev) (h : (St.run es).ub = false) :
    ∃ hs rest, raised es = hs ++ rest ∧ (St.run es).emitted = hs.map meaning ∧
      rest = (St.run es).queue.filterMap H.sig? ++ (St.run es).kept := by
  have i := Inv.run es
  exact ⟨(St.run es).handled, _, by rw [← i.cons h, List.append_assoc]; rfl, i.emit, rfl⟩

example : (St.run [.pump none, .raise .int, .raise .term, .pump none, .pump none]).ub = false ∧
    (St.run [.pump none, .raise .int, .raise .term, .pump none, .pump none]).emitted
      = [.total, .terminal] := by decide

/-- While `co_main` runs and signals keep coming, every signal raised is emitted once the loop
has run the handlers there are: the wait is armed again each time. -/
theorem C50_armed (es : List Ev) (hf : (St.run es).frame = true) :
    (St.run es).waiting = true ∨ (St.run es).queue.filterMap H.sig? ≠ [] := by
  suffices ∀ (es : List Ev) (s : St), (s.frame = true → s.waiting = true ∨ sigs s.queue ≠ []) →
      (es.foldl St.step s).frame = true →
      (es.foldl St.step s).waiting = true ∨ sigs (es.foldl St.step s).queue ≠ [] from
    this es {} (by simp) hf
  intro es
  induction es with
  | nil => exact fun _ h => h
  | cons e es ih =>
    intro s h
    refine ih _ ?_
    clear ih
    obtain ⟨queue, waiting, kept, frame, started, busy, res, emitted, handled, ub, returned, late⟩ := s
    unfold St.step
    cases ub with
    | true => exact h
    | false =>
      cases e with
      | raise x => cases waiting <;> simp_all
      | opEnds r => cases busy <;> simp_all
      | pump now =>
        cases queue with
        | nil => exact h
        | cons hd q =>
          cases hd with
          | start => simpa [St.pump] using h
          | aborted => simpa [St.pump] using h
          | op r => cases r <;> simp_all [St.pump, St.finish]
          | sig x =>
            cases frame with
            | false => simp [St.pump, St.work]
            | true =>
              cases now <;> cases busy <;> cases kept <;> simp [St.pump, St.work, St.arm, St.finish]

example : (St.run [.pump none, .raise .int, .raise .term, .pump none]).frame = true ∧
    (St.run [.pump none, .raise .int, .raise .term, .pump none]).waiting = false := by decide

/-- **C50**, as far as it holds. Missing from the full statement: `co_main` returns from a
handler of its own and not from within the emission of a cancellation (`Posted`), and no
handler of a signal is in the queue at that moment (`late = []`). Then nothing touches the
destroyed coroutine, whatever comes afterwards, the loop ends and the result is the value
returned. -/
theorem C50_partial (es : List Ev) (hp : Posted es) (hl : (St.run es).late = []) :
    (St.run es).ub = false ∧
    (∃ hs, hs <+: raised es ∧ (St.run es).emitted = hs.map meaning) ∧
    (∀ v, (St.run es).returned = some v →
      (St.run (es ++ goOn (St.run es).queue.length)).Ended ∧
      (St.run (es ++ goOn (St.run es).queue.length)).res = v) := by
  have i := Inv.run es
  have c := Calm.run es hp
  have hu : (St.run es).ub = false := by
    cases h : (St.run es).ub
    · rfl
    · exact absurd hl (c.ub h)
  refine ⟨hu, ?_, fun v hv => ?_⟩
  · obtain ⟨hs, rest, h1, h2, _⟩ := C50_signals es hu
    exact ⟨hs, ⟨rest, h1.symm⟩, h2⟩
  · have hf : (St.run es).frame = false := by
      cases h : (St.run es).frame
      · rfl
      · rw [(i.fr h).1] at hv; cases hv
    rw [run_append, goOn_calm _ hf hu ((c.lt hf hu).trans hl) (i.nofr hf).2.2 (Nat.le_refl _)]
    refine ⟨⟨rfl, c.wt hf, hf⟩, ?_⟩
    have := (i.nofr hf).1
    rw [hv] at this
    exact (Option.some.inj this).symm

/-- A signal, and then the operation ends and `co_main` returns 7. -/
def clean : List Ev :=
  [.pump none, .raise .int, .pump none, .opEnds (some 7), .pump none, .raise .term]

example : Posted clean ∧ (St.run clean).late = [] ∧ (St.run clean).returned = some 7 ∧
    (St.run clean).emitted = [.total] := by
  refine ⟨?_, by decide, by decide, by decide⟩
  intro e he v h
  subst h
  simp [clean] at he

/-- A handler of a signal in the queue as `co_main` returns always emits on the cancellation
signal of the destroyed coroutine, or has already. -/
theorem C50_late (es : List Ev) (hp : Posted es) (hl : (St.run es).late ≠ []) :
    (St.run (es ++ goOn (St.run es).queue.length)).ub = true := by
  have i := Inv.run es
  have c := Calm.run es hp
  have hf : (St.run es).frame = false := by
    cases h : (St.run es).frame
    · rfl
    · exact absurd (i.fr h).2 hl
  rw [run_append]
  cases hu : (St.run es).ub with
  | false =>
    exact goOn_late _ hf hu (by rw [c.lt hf hu]; exact hl) (i.nofr hf).2.2 (Nat.le_refl _)
  | true =>
    have : ∀ (l : List Ev) (t : St), t.ub = true → (l.foldl St.step t).ub = true := by
      intro l
      induction l with
      | nil => exact fun _ h => h
      | cons e l ih =>
        intro t ht
        have h : t.step e = t := by simp [St.step, ht]
        rw [List.foldl_cons, h]; exact ih t ht
    exact this _ _ hu

/-- The operation ends; before its handler runs a signal comes; `co_main` returns. -/
def crossing : List Ev :=
  [.pump none, .opEnds (some 7), .raise .int, .pump none]

example : Posted crossing ∧ (St.run crossing).late = [.int] := by
  refine ⟨?_, by decide⟩
  intro e he v h
  subst h
  simp [crossing] at he

theorem posted_plain (es : List Ev) : Posted (es.map Ev.plain) := by
  intro e he v h
  obtain ⟨e', -, rfl⟩ := List.mem_map.1 he
  cases e' <;> simp [Ev.plain] at h

/-- Exactly when `co_main` ends well once it has returned, in any run: it returned from a handler
of its own, and no handler of a signal was in the queue at that moment. Otherwise a cancellation is
emitted on the destroyed coroutine's signal, or the loop does not end. -/
theorem C50_exact (es : List Ev) (v : Int) (hv : (St.run es).returned = some v) :
    ((St.run (es ++ goOn (St.run es).queue.length)).ub = false ∧
      (St.run (es ++ goOn (St.run es).queue.length)).Ended ∧
      (St.run (es ++ goOn (St.run es).queue.length)).res = v) ↔
    ¬ Inside es ∧ (St.run es).late = [] := by
  by_cases hi : Inside es
  · simp only [hi, not_true, false_and, iff_false]
    rintro ⟨hu, ⟨hq, hw, -⟩, -⟩
    have := (Armed.run hi).foldl (goOn (St.run es).queue.length)
    rw [← run_append] at this
    rcases this.left with h | h | h
    · rw [hu] at h; cases h
    · rw [hw] at h; cases h
    · rw [hq] at h; exact h rfl
  · simp only [hi, not_false_eq_true, true_and]
    have hr := run_plain es hi
    have hp := posted_plain es
    have e1 : St.run (es ++ goOn (St.run es).queue.length) =
        St.run (es.map Ev.plain ++ goOn (St.run (es.map Ev.plain)).queue.length) := by
      rw [run_append, run_append, hr]
    constructor
    · rintro ⟨hu, -⟩
      apply Classical.byContradiction
      intro hl
      have := C50_late _ hp (by rw [hr]; exact hl)
      rw [← e1, hu] at this; cases this
    · intro hl
      have h := C50_partial _ hp (by rw [hr]; exact hl)
      have h2 := h.2.2 v (by rw [hr]; exact hv)
      rw [← e1] at h2
      refine ⟨?_, h2⟩
      -- a longer run of the same kind
      have i := Inv.run es
      have c := Calm.run _ hp
      rw [hr] at c
      have hf : (St.run es).frame = false := by
        cases h : (St.run es).frame
        · rfl
        · rw [(i.fr h).1] at hv; cases hv
      have hu := h.1
      rw [hr] at hu
      rw [run_append, goOn_calm _ hf hu ((c.lt hf hu).trans hl) (i.nofr hf).2.2 (Nat.le_refl _)]
      exact hu

example : (St.run clean).returned = some 7 ∧ (St.run crossing).returned = some 7 ∧
    (St.run [.pump none, .raise .int, .pump (some 7)]).returned = some 7 := by decide

/-- **C50** is violated: a signal that comes between the end of the last operation and the
return of `co_main` is emitted on the destroyed coroutine's cancellation signal. -/
theorem C50_violated : ¬ C50 := by
  intro h
  have := (h (crossing ++ [.pump none])).1
  revert this
  decide

/-- **C50** is violated in a second way: if the emission itself makes `co_main` return, the
wait is armed again after that, and the loop has nothing but the wait, and does not end. -/
theorem C50_violated_waits :
    let s := St.run [.pump none, .raise .int, .pump (some 7)]
    s.returned = some 7 ∧ s.ub = false ∧ s.queue = [] ∧ s.waiting = true ∧
      ∀ n, St.run ([.pump none, .raise .int, .pump (some 7)] ++ goOn n) = s := by
  refine ⟨rfl, rfl, rfl, rfl, fun n => ?_⟩
  rw [run_append]
  induction n with
  | zero => rfl
  | succ n ih => exact ih

end Cobalt.Main
