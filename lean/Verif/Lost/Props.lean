import Verif.Lost.Lemmas
/-!
# C78: combinators whose children are destroyed
-/
namespace Cobalt.Lost

/-- C78: whatever mixture of children of a `gather`, `join` or `race` completes or is destroyed, no
destroyed frame is used, the awaiter never reads a result that does not exist, and it is resumed or
destroyed once when all children have ended. -/
def C78 : Prop := ∀ (c : Cfg) (es : List Ev), 0 < c.n →
  (run c es).ub = false ∧ (run c es).awaiter ≠ .resumed true ∧ (run c es).ends ≤ 1 ∧
  ((∀ i, ¬ Waits c.n es i) → (run c es).ends = 1)

/-- Whatever happens the awaiter is not resumed or destroyed twice; unless something undefined
happens it is suspended as long as a child waits, and resumed or destroyed then. -/
theorem C78_once (c : Cfg) (es : List Ev) (hn : 0 < c.n) : (run c es).ends ≤ 1 ∧
    ((run c es).ub = false →
      ((run c es).awaiter = .suspended ↔ ∃ i, Waits c.n es i) ∧
      ((∀ i, ¬ Waits c.n es i) → (run c es).ends = 1)) := by
  have hi := Inv.run hn es
  refine ⟨?_, fun hu => ⟨run_suspended hn hu, fun hw => ?_⟩⟩
  · rw [hi.ends]; split <;> omega
  · have h0 : (run c es).uses = 0 := Classical.byContradiction fun h0 =>
      let ⟨i, h'⟩ := (run_suspended hn hu).mp (hi.susp.mpr h0)
      hw i h'
    rw [hi.ends, if_pos h0]

example : (run ⟨.race, 3, fun _ => false⟩ [.fin 1 none, .lost 0, .lost 2]).ub = false ∧
    (run ⟨.race, 3, fun _ => false⟩ [.fin 1 none, .lost 0, .lost 2]).ends = 1 ∧
    (run ⟨.race, 3, fun _ => false⟩ [.fin 1 none, .lost 0, .lost 2]).awaiter = .destroyed := by decide

/-- C78 for histories in which nothing but the destruction of children follows the destruction of
a child. Missing: histories that go on, for which it does not hold. -/
theorem C78_partial (c : Cfg) (es : List Ev) (hn : 0 < c.n) (hq : Quiet es) :
    (run c es).ub = false ∧ (run c es).awaiter ≠ .resumed true ∧ (run c es).ends ≤ 1 ∧
    ((∀ i, ¬ Waits c.n es i) → (run c es).ends = 1) := by
  have h := quiet_run hn hq (Inv.init hn) rfl (by intro j _ hj; cases hj)
  have h1 := C78_once c es hn
  exact ⟨h.1, h.2, h1.1, (h1.2 h.1).2⟩

example : Quiet [.fin 1 (some 7), .cancel, .lost 0, .lost 2] :=
  .cons _ _ (by simp) (.cons _ _ (by simp) (.losts _ (by simp)))

example : (run ⟨.join, 3, fun _ => true⟩ [.fin 1 (some 7), .cancel, .lost 0, .lost 2]).awaiter
    = .destroyed := by decide

/-- All children are destroyed: so is the awaiter, once. -/
theorem C78_all (c : Cfg) (es : List Ev) (hn : 0 < c.n) (hl : ∀ e, e ∈ es → ∃ i, e = .lost i)
    (ha : ∀ i, i < c.n → .lost i ∈ es) :
    (run c es).ub = false ∧ (run c es).awaiter = .destroyed ∧ (run c es).ends = 1 := by
  obtain ⟨hu, -, -, h1⟩ := C78_partial c es hn (.losts es hl)
  have hfe : ∀ (i : Nat) (es : List Ev), (∀ e, e ∈ es → ∃ i, e = .lost i) →
      (.lost i ∈ es → firstEnd i es = some false) ∧ firstEnd i es ≠ some true := by
    intro i es
    induction es with
    | nil => intro _; exact ⟨fun h => (by cases h), fun h => (by cases h)⟩
    | cons e es ih =>
      intro h
      obtain ⟨k, rfl⟩ := h e (List.mem_cons_self ..)
      have ih := ih fun e he => h e (List.mem_cons_of_mem _ he)
      simp only [firstEnd]
      by_cases hk : k = i
      · simp [hk]
      · rw [if_neg hk]
        refine ⟨fun hm => ih.1 ?_, ih.2⟩
        rcases List.mem_cons.mp hm with h' | h'
        · cases h'; exact absurd rfl hk
        · exact h'
  have hw : ∀ i, ¬ Waits c.n es i := by
    rintro i ⟨hi, he⟩
    rw [(hfe i es hl).1 (ha i hi)] at he; cases he
  refine ⟨hu, ?_, h1 hw⟩
  have hs := (run_suspended hn hu)
  cases hA : (run c es).awaiter with
  | suspended => obtain ⟨i, h'⟩ := hs.mp hA; exact absurd h' (hw i)
  | destroyed => rfl
  | resumed b =>
    exfalso
    have : ∀ (es : List Ev) (s : St), (∀ e, e ∈ es → ∃ i, e = .lost i) →
        s.awaiter ≠ .resumed b → (es.foldl (St.step c) s).awaiter ≠ .resumed b := by
      intro es
      induction es with
      | nil => intro s _ h; exact h
      | cons e es ih =>
        intro s h hs
        obtain ⟨k, rfl⟩ := h e (List.mem_cons_self ..)
        rw [List.foldl_cons]
        refine ih _ (fun e he => h e (List.mem_cons_of_mem _ he)) ?_
        simp only [St.step]
        split
        · split
          · intro h'; cases h'
          · exact hs
        · exact hs
    exact this es (init c) hl (by intro h'; cases h') hA

example : (run ⟨.gather, 2, fun _ => true⟩ [.lost 1, .lost 0]).awaiter = .destroyed := by decide

/-- `gather` with awaitables that leave no handler behind: nothing is undefined before the awaiter
is resumed, and it reads a result that does not exist exactly if a child was destroyed. -/
theorem C78_gather (n : Nat) (es : List Ev) (hn : 0 < n) :
    (run ⟨.gather, n, fun _ => false⟩ es).ub = false ∧
    ∀ b, (run ⟨.gather, n, fun _ => false⟩ es).awaiter = .resumed b →
      (b = true ↔ ∃ i, Destroyed n es i) := by
  have hu : (run ⟨.gather, n, fun _ => false⟩ es).ub = false :=
    foldl_safe (by simp) (fun _ => rfl) es _
  refine ⟨hu, fun b hb => ?_⟩
  have hi := Inv.run (c := ⟨.gather, n, fun _ => false⟩) hn es
  rw [hi.resumed b hb]
  have h0 : (run ⟨.gather, n, fun _ => false⟩ es).uses = 0 := Classical.byContradiction fun h0 => by
    rw [hi.susp.mpr h0] at hb; cases hb
  rw [hi.uses, waitingIn_zero] at h0
  simp only [St.reads, List.any_eq_true, List.mem_range, Bool.not_eq_true']
  constructor
  · rintro ⟨j, hj, hr⟩
    refine ⟨j, (run_lost hu).mpr ⟨hj, ?_⟩⟩
    have h1 := h0 j hj
    have h2 : (run ⟨.gather, n, fun _ => false⟩ es).child j ≠ .done := fun hd => by
      rw [(hi.gather rfl j hj).mpr hd] at hr; cases hr
    revert h1 h2
    cases (run ⟨.gather, n, fun _ => false⟩ es).child j <;> simp
  · rintro ⟨j, hd⟩
    obtain ⟨hj, hl⟩ := (run_lost hu).mp hd
    refine ⟨j, hj, ?_⟩
    cases hr : (run ⟨.gather, n, fun _ => false⟩ es).res j with
    | false => rfl
    | true => rw [(hi.gather rfl j hj).mp hr] at hl; cases hl

example : (run ⟨.gather, 2, fun _ => false⟩ [.lost 0, .fin 1 none]).awaiter = .resumed true := by decide
example : (run ⟨.gather, 2, fun _ => false⟩ [.fin 0 none, .fin 1 none]).awaiter = .resumed false := by
  decide

/-- The same for `join`: it reads a result that does not exist exactly if a child was destroyed and
no other one threw; the exception is the first one. -/
theorem C78_join (n : Nat) (es : List Ev) (hn : 0 < n) :
    (run ⟨.join, n, fun _ => false⟩ es).ub = false ∧
    (run ⟨.join, n, fun _ => false⟩ es).err = firstThrow n [] es ∧
    ∀ b, (run ⟨.join, n, fun _ => false⟩ es).awaiter = .resumed b →
      (b = true ↔ firstThrow n [] es = none ∧ ∃ i, Destroyed n es i) := by
  have hu : (run ⟨.join, n, fun _ => false⟩ es).ub = false :=
    foldl_safe (by simp) (fun _ => rfl) es _
  have herr : (run ⟨.join, n, fun _ => false⟩ es).err = firstThrow n [] es :=
    join_err_foldl (c := ⟨.join, n, fun _ => false⟩) rfl (fun _ => rfl) es _ [] rfl (by
      intro i _; simp [Lost.init])
  refine ⟨hu, herr, fun b hb => ?_⟩
  rw [← herr]
  have hi := Inv.run (c := ⟨.join, n, fun _ => false⟩) hn es
  rw [hi.resumed b hb]
  have h0 : (run ⟨.join, n, fun _ => false⟩ es).uses = 0 := Classical.byContradiction fun h0 => by
    rw [hi.susp.mpr h0] at hb; cases hb
  rw [hi.uses, waitingIn_zero] at h0
  simp only [St.reads, Bool.and_eq_true, List.any_eq_true, List.mem_range, Bool.not_eq_true',
    Option.isNone_iff_eq_none]
  constructor
  · rintro ⟨he, j, hj, hr⟩
    refine ⟨he, j, (run_lost hu).mpr ⟨hj, ?_⟩⟩
    have h1 := h0 j hj
    have h2 : (run ⟨.join, n, fun _ => false⟩ es).child j ≠ .done := fun hd => by
      rw [(hi.join rfl j hj).2 hd he] at hr; cases hr
    revert h1 h2
    cases (run ⟨.join, n, fun _ => false⟩ es).child j <;> simp
  · rintro ⟨he, j, hd⟩
    obtain ⟨hj, hl⟩ := (run_lost hu).mp hd
    refine ⟨he, j, hj, ?_⟩
    cases hr : (run ⟨.join, n, fun _ => false⟩ es).res j with
    | false => rfl
    | true => rw [(hi.join rfl j hj).1 hr] at hl; cases hl

example : (run ⟨.join, 2, fun _ => false⟩ [.lost 0, .fin 1 none]).awaiter = .resumed true := by decide
example : (run ⟨.join, 2, fun _ => false⟩ [.lost 0, .fin 1 (some 4)]).awaiter = .resumed false := by
  decide

/-- `race` with awaitables that leave no handler behind: it uses a destroyed frame exactly if, after
the destruction of a child, another child completes or the race is interrupted. -/
theorem C78_race (n : Nat) (es : List Ev) (hn : 0 < n) :
    (run ⟨.race, n, fun _ => false⟩ es).ub = true ↔
    ∃ pre e post, es = pre ++ e :: post ∧ (∃ j, Destroyed n pre j) ∧
      ((∃ i o, e = .fin i o ∧ Waits n pre i) ∨ (e = .interrupt ∧ ∃ i, Waits n pre i)) := by
  have key : ∀ pre e, (run ⟨.race, n, fun _ => false⟩ pre).ub = false →
      (((run ⟨.race, n, fun _ => false⟩ pre).step ⟨.race, n, fun _ => false⟩ e).ub = true ↔
        (∃ j, Destroyed n pre j) ∧
        ((∃ i o, e = .fin i o ∧ Waits n pre i) ∨ (e = .interrupt ∧ ∃ i, Waits n pre i))) := by
    intro pre e hu
    rw [race_step rfl (fun _ => rfl) hu, run_suspended hn hu]
    have h1 : ∀ j, Destroyed n pre j ↔ _ := fun j => run_lost hu
    have h2 : ∀ j, Waits n pre j ↔ _ := fun j => run_waits hu
    simp only [h1, h2]
  constructor
  · intro h
    obtain ⟨pre, e, post, rfl, hu, hs⟩ := (ub_split es (init _) rfl).mp h
    exact ⟨pre, e, post, rfl, (key pre e hu).mp hs⟩
  · rintro ⟨pre, e, post, rfl, hx⟩
    cases hu : (run ⟨.race, n, fun _ => false⟩ pre).ub with
    | true =>
      rw [run, List.foldl_append]
      have hu' : (pre.foldl (St.step ⟨.race, n, fun _ => false⟩) (init ⟨.race, n, fun _ => false⟩)).ub
        = true := hu
      rw [foldl_of_ub hu', hu']
    | false => exact (ub_split _ (init _) rfl).mpr ⟨pre, e, post, rfl, hu, (key pre e hu).mpr hx⟩

example : (run ⟨.race, 2, fun _ => false⟩ [.lost 0, .fin 1 none]).ub = true := by decide
example : (run ⟨.race, 2, fun _ => false⟩ [.fin 1 none, .lost 0]).ub = false := by decide

/-- C78 does not hold: a child of a race is destroyed (the coroutine behind an awaited promise is,
or the channel it reads from), then the other one completes: `working` points into the destroyed
frame (race.hpp:174-194). -/
theorem C78_violated : ¬ C78 := fun h => by
  have := (h ⟨.race, 2, fun _ => false⟩ [.lost 0, .fin 1 none] (by decide)).1
  revert this; decide

/-- Neither for `gather`, which reads the missing result of the child (gather.hpp:200-209), nor for
`join` (join.hpp:222-234). -/
theorem C78_missing_violated :
    (run ⟨.gather, 2, fun _ => false⟩ [.lost 0, .fin 1 none]).awaiter = .resumed true ∧
    (run ⟨.join, 2, fun _ => false⟩ [.lost 0, .fin 1 none]).awaiter = .resumed true := by decide

/-- Neither for `join`, whose next failure calls the handler a destroyed child left in its slot
(join.hpp:155-160). -/
theorem C78_join_violated :
    (run ⟨.join, 3, fun j => j == 0⟩ [.lost 0, .fin 1 (some 4)]).ub = true ∧
    (run ⟨.join, 3, fun j => j == 0⟩ [.lost 0, .fin 1 none]).ub = false := by decide

/-- Neither for `gather` when it is cancelled after that. -/
theorem C78_cancel_violated :
    (run ⟨.gather, 2, fun j => j == 0⟩ [.lost 0, .cancel]).ub = true := by decide

end Cobalt.Lost
