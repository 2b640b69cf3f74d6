import Verif.Comb.Frames
/-! # C58: the frame of a child is not used after it was destroyed -/
namespace Cobalt.Comb.Frames

theorem clean_cons {o : Op} {l : List Op} :
    Clean (o :: l) ↔ (∀ i, o = .destroy i → ∀ p ∈ l, p.child ≠ i) ∧ Clean l := by
  constructor
  · intro h
    exact ⟨fun i hi => h [] l i (by rw [hi]; rfl), fun pre post i hl => h (o :: pre) post i (by rw [hl]; rfl)⟩
  · rintro ⟨h1, h2⟩ pre post i hl
    cases pre with
    | nil =>
      simp only [List.nil_append, List.cons.injEq] at hl
      rw [← hl.2]; exact h1 i hl.1
    | cons a pre =>
      simp only [List.cons_append, List.cons.injEq] at hl
      exact h2 pre post i hl.2

theorem clean_nil : Clean [] := by
  intro pre post i h
  cases pre <;> simp at h

theorem startRest_ge : ∀ (cs : List Child) (i : Nat), ∀ p ∈ startRest i cs, i ≤ p.child
  | [], _, p, h => by simp [startRest] at h
  | c :: cs, i, p, h => by
    rw [startRest, List.mem_append] at h
    rcases h with h | h
    · cases c <;> simp [startWired] at h
      · rcases h with rfl | rfl <;> simp [Op.child]
      · rcases h with rfl | rfl <;> simp [Op.child]
      · subst h; simp [Op.child]
    · have := startRest_ge cs (i + 1) p h; omega

theorem startRest_clean : ∀ (cs : List Child) (i : Nat), Clean (startRest i cs)
  | [], _ => clean_nil
  | c :: cs, i => by
    have h := startRest_clean cs (i + 1)
    have h2 : ∀ p ∈ startRest (i + 1) cs, p.child ≠ i := fun p hp => by
      have := startRest_ge cs (i + 1) p hp; omega
    cases c <;> simp only [startRest, startWired, List.cons_append, List.nil_append, clean_cons] <;>
      simp only [reduceCtorEq, false_implies, implies_true, true_and, Op.destroy.injEq] <;>
      first
        | exact h
        | exact ⟨fun j hj => by rw [← hj]; exact h2, h⟩

theorem raceRest_ge (d : Nat → Bool) : ∀ (cs : List Child) (i : Nat), ∀ p ∈ raceRest d i cs, i ≤ p.child
  | [], _, p, h => by simp [raceRest] at h
  | c :: cs, i, p, h => by
    rw [raceRest, List.mem_append, List.mem_append] at h
    rcases h with (h | h) | h
    · cases c <;> simp [startWired] at h
      · rcases h with rfl | rfl <;> simp [Op.child]
      · rcases h with rfl | rfl <;> simp [Op.child]
      · subst h; simp [Op.child]
    · simp at h; subst h; simp [Op.child]
    · split at h
      · simp at h
      · have := raceRest_ge d cs (i + 1) p h; omega

theorem raceRest_clean (d : Nat → Bool) : ∀ (cs : List Child) (i : Nat),
    Clean (raceRest d i cs) ↔ ∀ c ∈ cs, c = .later
  | [], _ => by simp [raceRest, clean_nil]
  | c :: cs, i => by
    have ih := raceRest_clean d cs (i + 1)
    cases c
    · simp [raceRest, startWired, clean_cons, Op.child]
    · simp [raceRest, startWired, clean_cons, Op.child]
    · simp [raceRest, startWired, clean_cons, ih]

/-- C58 for gather and join holds just if the first awaitable is not ready: otherwise
`done()` is asked about a frame that has destroyed itself, and if there is another
awaitable the frame is destroyed once more. Full statement: `Clean (gather none 0 cs)`
for all `cs`. -/
theorem C58_gather_partial (cs : List Child) : Clean (gather none 0 cs) ↔ cs.head? ≠ some .ready := by
  cases cs with
  | nil => simp [gather, clean_nil]
  | cons c cs =>
    have h := startRest_clean cs 1
    have h2 : ∀ p ∈ startRest 1 cs, p.child ≠ 0 := fun p hp => by
      have := startRest_ge cs 1 p hp; omega
    cases c
    · simp [gather, startUnwired, clean_cons, Op.child]
    · simp only [gather, startUnwired, resume, reduceCtorEq, if_false, List.cons_append, List.nil_append, clean_cons]
      simp only [reduceCtorEq, false_implies, implies_true, true_and, Op.destroy.injEq, List.head?_cons, ne_eq,
        Option.some.injEq, not_false_eq_true, iff_true]
      exact ⟨fun j hj => by rw [← hj]; exact h2, h⟩
    · simp only [gather, startUnwired, resume, reduceCtorEq, if_false, List.cons_append, List.nil_append, clean_cons]
      simp only [reduceCtorEq, false_implies, implies_true, true_and, Op.destroy.injEq, List.head?_cons, ne_eq,
        Option.some.injEq, not_false_eq_true, iff_true]
      exact h

/-- C58 for race holds just if the first awaitable started is not ready and none of
the others, if they are started, completes while it is started. Full statement:
`Clean (race d cs)` for all `cs`. -/
theorem C58_race_partial (d : Nat → Bool) (cs : List Child) : Clean (race d cs) ↔
    cs.head? ≠ some .ready ∧ (cs.head? = some .later → ∀ c ∈ cs, c = .later) := by
  cases cs with
  | nil => simp [race, clean_nil]
  | cons c cs =>
    cases c
    · simp [race, startUnwired, clean_cons, Op.child]
    · simp [race, startUnwired, resume, clean_cons, clean_nil]
    · simp [race, startUnwired, resume, clean_cons, raceRest_clean]

/-- C58 does not hold: the frame of the first of two ready awaitables is destroyed
twice. -/
theorem C58_gather_violated : gather none 0 [.ready, .ready] =
    [.create 0, .destroy 0, .done 0, .create 1, .destroy 1, .destroy 0, .done 1] ∧
    ¬ Clean (gather none 0 [.ready, .ready]) :=
  ⟨rfl, by rw [C58_gather_partial]; simp⟩

/-- Nor for race: the second awaitable is ready; or the first is, and its frame is
destroyed twice. -/
theorem C58_race_violated (d : Nat → Bool) : ¬ Clean (race d [.later, .ready]) ∧ ¬ Clean (race d [.ready]) ∧
    race d [.ready] = [.create 0, .destroy 0, .done 0, .destroy 0] :=
  ⟨by rw [C58_race_partial]; simp, by rw [C58_race_partial]; simp, rfl⟩

example : Clean (gather none 0 [.later, .ready, .soon]) ∧ Clean (race (fun _ => true) [.later, .later]) :=
  ⟨by rw [C58_gather_partial]; simp, by rw [C58_race_partial]; simp⟩

/-- In gather and join only children are destroyed twice that were ready before the
first that was not. -/
example : gather none 0 [.ready, .ready, .soon, .ready] =
    [.create 0, .destroy 0, .done 0, .create 1, .destroy 1, .destroy 0, .done 1, .create 2, .destroy 1, .done 2,
     .resume 2, .destroy 2, .create 3, .destroy 3] := rfl

end Cobalt.Comb.Frames
