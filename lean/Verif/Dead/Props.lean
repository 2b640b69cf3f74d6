import Verif.Dead.Lemmas
/-!
# C127: semaphores taken in order do not deadlock

include/boost/cobalt/channel.hpp:209-321, include/boost/cobalt/impl/channel.hpp:326-426, src/channel.cpp.
-/
namespace Cobalt.Dead

/-- When nothing can happen any more, everybody has finished. -/
theorem C127_finished {users n : Nat} {k : Nat → BitVec 64} {prog : Nat → List Cmd} (h : Setup users n k prog)
    (es : List Ev) (hs : ∀ e, ¬ Acts (exec users k prog es) e) : Finished (exec users k prog es) := by
  have g : GI users n k (exec users k prog es) := GI.steps h.few es (GI.init h)
  generalize exec users k prog es = s at *
  have hp : ∀ j, (s.lk j).ch.posted = [] := by
    intro j
    refine List.length_eq_zero_iff.1 (Classical.byContradiction fun hx => hs (.run j 0) ?_)
    show 0 < _
    omega
  have hb : ∀ u, s.blocked u = true ∨ s.prog u = [] := by
    intro u
    cases hx : s.blocked u with
    | true => exact Or.inl rfl
    | false => exact Or.inr (Classical.byContradiction fun hne => hs (.go u true) ⟨hx, hne⟩)
  have hw := g.none_waits h.room hp hb
  intro u
  have hpr : s.prog u = [] := by
    rcases hb u with hx | hx
    · unfold St.blocked isWait at hx
      split at hx
      · next y hy => exact absurd hy (hw _ _ _ _ (Nat.le_refl _))
      · cases hx
    · exact hx
  refine ⟨hpr, fun j => ?_⟩
  obtain ⟨l, hh⟩ := g.has u
  have ho := hh.ord
  rw [hpr] at ho
  have ho : l = [] := ho
  refine Classical.byContradiction fun hx => ?_
  have := (hh.mem j).2 hx
  rw [ho] at this
  cases this

/-- Whatever has happened, if somebody has not finished, something can happen: a coroutine that is not suspended has a
command, or a resumption is posted. -/
theorem C127_no_deadlock {users n : Nat} {k : Nat → BitVec 64} {prog : Nat → List Cmd} (h : Setup users n k prog)
    (es : List Ev) (hs : ¬ Finished (exec users k prog es)) : ∃ e, Acts (exec users k prog es) e :=
  Classical.byContradiction fun hx => hs (C127_finished h es fun e he => hx ⟨e, he⟩)

/-- A run comes to an end, after at most two events for each command. -/
theorem C127_bound {users n : Nat} {k : Nat → BitVec 64} {prog : Nat → List Cmd} (h : Setup users n k prog)
    (es : List Ev) (ha : ActsAll (St.init users k prog) es) : es.length ≤ 2 * commands users prog := by
  have := GI.bound h.few es (GI.init h) ha
  unfold todo at this
  have hz : ∀ m, sumTo (fun j => ((St.init users k prog).lk j).ch.posted.length) m = 0 := by
    intro m
    induction m with
    | zero => rfl
    | succ m ih => rw [sumTo_succ, ih]; rfl
  rw [hz] at this
  exact this

/-- **C127** -/
theorem C127_holds : C127 := fun _ _ _ _ h es ha => ⟨C127_bound h es ha, C127_finished h es⟩

/-- Everybody can be brought to the end from wherever a run has got. -/
theorem C127_end {users n : Nat} {k : Nat → BitVec 64} {prog : Nat → List Cmd} (h : Setup users n k prog)
    (es : List Ev) (ha : ActsAll (St.init users k prog) es) :
    ∃ es', ActsAll (St.init users k prog) (es ++ es') ∧ Finished (exec users k prog (es ++ es')) := by
  have key : ∀ (d : Nat) (es : List Ev), ActsAll (St.init users k prog) es →
      2 * commands users prog - es.length ≤ d →
      ∃ es', ActsAll (St.init users k prog) (es ++ es') ∧ Finished (exec users k prog (es ++ es')) := by
    have happ : ∀ (es : List Ev) (s : St) (e : Ev), ActsAll s es → Acts (s.steps es) e → ActsAll s (es ++ [e]) := by
      intro es
      induction es with
      | nil => exact fun s e _ he => ⟨he, trivial⟩
      | cons a es ih => exact fun s e h1 h2 => ⟨h1.1, ih _ e h1.2 h2⟩
    intro d
    induction d with
    | zero =>
      intro es ha hd
      refine ⟨[], by rwa [List.append_nil], ?_⟩
      rw [List.append_nil]
      refine C127_finished h es fun e he => ?_
      have := C127_bound h _ (happ es _ e ha he)
      simp only [List.length_append, List.length_singleton] at this
      omega
    | succ d ih =>
      intro es ha hd
      by_cases hf : Finished (exec users k prog es)
      · exact ⟨[], by rwa [List.append_nil], by rwa [List.append_nil]⟩
      · obtain ⟨e, he⟩ := C127_no_deadlock h es hf
        have ha' := happ es _ e ha he
        obtain ⟨es', h1, h2⟩ := ih _ ha' (by simp only [List.length_append, List.length_singleton]; omega)
        exact ⟨e :: es', by simpa using h1, by simpa using h2⟩
  exact key _ es ha (Nat.le_refl _)

/-- Philosopher `u` of three takes the lower of its forks first. -/
def dine : Nat → List Cmd
  | 0 => [.take 0, .take 1, .give 1, .give 0]
  | 1 => [.take 1, .take 2, .give 1, .give 2]
  | 2 => [.take 0, .take 2, .give 2, .give 0]
  | _ => []

theorem dine_setup : Setup 3 3 (fun _ => 1) dine := by
  refine ⟨by decide, fun _ => by decide, fun u => ?_, fun u hu => ?_⟩
  · match u with
    | 0 => decide
    | 1 => decide
    | 2 => decide
    | u + 3 => rfl
  · match u, hu with
    | u + 3, _ => rfl

/-- All three want to eat, philosopher 2 has to wait for its first fork, philosopher 0 for its second. -/
def dinner : List Ev := [.go 0 true, .go 1 true, .go 2 true, .go 0 true, .go 1 true, .go 1 true, .run 1 0]

instance (s : St) (e : Ev) : Decidable (Acts s e) := by unfold Acts; split <;> infer_instance

instance decActsAll (s : St) : (es : List Ev) → Decidable (ActsAll s es)
  | [] => .isTrue trivial
  | e :: es =>
    have := decActsAll (s.step e) es
    inferInstanceAs (Decidable (_ ∧ _))

example : ActsAll (St.init 3 (fun _ => 1) dine) dinner ∧ (exec 3 (fun _ => 1) dine dinner).blocked 2 = true ∧
    (exec 3 (fun _ => 1) dine dinner).blocked 0 = false ∧
    ((exec 3 (fun _ => 1) dine dinner).lk 1).ph 0 = .inside ∧
    ¬ Finished (exec 3 (fun _ => 1) dine dinner) := by
  refine ⟨by decide, by decide, by decide, by decide, fun h => ?_⟩
  exact absurd (h 1).1 (by decide)

/-- Philosopher 2 takes its left fork first, like the others. -/
def greedy : Nat → List Cmd
  | 2 => [.take 2, .take 0, .give 0, .give 2]
  | u => dine u

/-- The order is needed: everybody has one fork and waits for the other, and nothing can happen any more. -/
theorem C127_needs_order :
    let s := exec 3 (fun _ => 1) greedy
      [Ev.go 0 true, Ev.go 1 true, Ev.go 2 true, Ev.go 0 true, Ev.go 1 true, Ev.go 2 true];
    (∀ e, ¬ Acts s e) ∧ ¬ Finished s := by
  intro s
  have hp : ∀ j, (s.lk j).ch.posted = [] := fun j =>
    match j with
    | 0 => by decide
    | 1 => by decide
    | 2 => by decide
    | j + 3 => rfl
  refine ⟨fun e => ?_, fun h => absurd (h 0).1 (by decide)⟩
  cases e with
  | run j m =>
    show ¬ m < (s.lk j).ch.posted.length
    rw [hp j]; simp
  | go u conn =>
    rintro ⟨h1, h2⟩
    match u with
    | 0 => exact absurd h1 (by decide)
    | 1 => exact absurd h1 (by decide)
    | 2 => exact absurd h1 (by decide)
    | u + 3 => exact h2 rfl

/-- A place is needed: nobody comes into a semaphore for none. -/
theorem C127_needs_room :
    let s := exec 1 (fun _ => 0) (fun u => if u = 0 then [.take 0, .give 0] else []) [.go 0 true];
    (∀ e, ¬ Acts s e) ∧ ¬ Finished s := by
  intro s
  have hp : ∀ j, (s.lk j).ch.posted = [] := fun j =>
    match j with
    | 0 => by decide
    | j + 1 => rfl
  refine ⟨fun e => ?_, fun h => absurd (h 0).1 (by decide)⟩
  cases e with
  | run j m =>
    show ¬ m < (s.lk j).ch.posted.length
    rw [hp j]; simp
  | go u conn =>
    rintro ⟨h1, h2⟩
    match u with
    | 0 => exact absurd h1 (by decide)
    | u + 1 => exact h2 (by rfl)

end Cobalt.Dead
