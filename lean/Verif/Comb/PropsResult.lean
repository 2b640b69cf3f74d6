import Verif.Comb.ResultLemmas
import Verif.Comb.PropsLife
/-! # C14, C15, C18, C20: the results of `gather`, `join` and `race` -/
namespace Cobalt.Comb

/-- C14: `gather` gives every outcome at its own position. -/
theorem C14_gather {c : Cfg} (hc : c.Ok) (hk : c.kind = .gather) {es : List Ev} (hl : Legal c {} es)
    (hu : (St.run c es).ub = false) (ho : (St.run c es).over) :
    ∃ l, (St.run c es).resume c = .values l ∧ l.length = c.n ∧ ∀ i, i < c.n → l[i]? = outcome es i ∧ l[i]? ≠ none := by
  have ha := All.run hc hl hu
  have hres := ha.hist.gather hk
  have hdone := (C13_all_done hc hl hu ho).1 (by rw [hk]; simp)
  have hsome : ∀ i, i < c.n → ((St.run c es).res i).isSome = true := by intro i hi; rw [hres]; exact hdone i hi
  obtain ⟨h1, h2⟩ := filterMap_range (St.run c es).res c.n hsome
  refine ⟨(List.range c.n).filterMap (St.run c es).res, ?_, h1, fun i hi => ?_⟩
  · simp only [St.resume, hk]
    rw [if_pos]
    rw [List.all_eq_true]
    intro i hi
    exact hsome i (List.mem_range.1 hi)
  · rw [h2 i hi, hres i]
    refine ⟨rfl, ?_⟩
    have := hdone i hi
    intro h0; rw [h0] at this; simp at this

/-- C14: a `gather` that is not cancelled or interrupted from outside never cancels or
interrupts an awaitable, whatever fails. -/
theorem C14_no_cancel {c : Cfg} (hc : c.Ok) (hk : c.kind = .gather) {es : List Ev} (hl : Legal c {} es)
    (hu : (St.run c es).ub = false) (h0 : ∀ e ∈ es, e ≠ .interrupt ∧ ∀ ct, e ≠ .cancel ct) :
    (St.run c es).sent = [] ∧ (St.run c es).intd = [] := by
  have := Quiet.steps hc hk es [] (All.init c) ⟨rfl, rfl, by simp [St.tags]⟩ hl hu h0
  exact ⟨this.sent, this.intd⟩

/-- The second fails first. -/
def exG : List Ev := [.begin, .notReady 0, .ret false, .notReady 1, .ret false, .fin 1 (.err 3), .fin 0 (.ok 5)]

example : Legal (two .gather) {} exG ∧ (St.run (two .gather) exG).ub = false ∧ (St.run (two .gather) exG).over ∧
    (St.run (two .gather) exG).resume (two .gather) = .values [.ok 5, .err 3] := by decide

/-- C15: `join` throws what failed first in time, or gives all values in order. -/
theorem C15_join {c : Cfg} (hc : c.Ok) (hk : c.kind = .join) {es : List Ev} (hl : Legal c {} es)
    (hu : (St.run c es).ub = false) (ho : (St.run c es).over) :
    (∀ e, firstErr es = some e → (St.run c es).resume c = .thrown e) ∧
    (firstErr es = none → ∃ l, (St.run c es).resume c = .values l ∧ l.length = c.n ∧
      ∀ i, i < c.n → ∃ v, l[i]? = some (.ok v) ∧ outcome es i = some (.ok v)) := by
  have ha := All.run hc hl hu
  have herr := ha.hist.joinErr hk
  have hdone := (C13_all_done hc hl hu ho).1 (by rw [hk]; simp)
  constructor
  · intro e he
    simp only [St.resume, hk, herr, he]
  · intro he
    have hok : ∀ i, i < c.n → ∃ v, outcome es i = some (.ok v) ∧ (St.run c es).res i = some (.ok v) := by
      intro i hi
      obtain ⟨o, hoo⟩ := Option.isSome_iff_exists.1 (hdone i hi)
      cases o with
      | ok v => exact ⟨v, hoo, ha.hist.join hk i v hoo⟩
      | err x => exact absurd hoo (firstErr_none he)
    have hsome : ∀ i, i < c.n → ((St.run c es).res i).isSome = true := by
      intro i hi; obtain ⟨v, -, h⟩ := hok i hi; rw [h]; rfl
    obtain ⟨h1, h2⟩ := filterMap_range (St.run c es).res c.n hsome
    refine ⟨(List.range c.n).filterMap (St.run c es).res, ?_, h1, fun i hi => ?_⟩
    · simp only [St.resume, hk, herr, he]
      rw [if_pos]
      rw [List.all_eq_true]
      intro i hi
      exact hsome i (List.mem_range.1 hi)
    · obtain ⟨v, h3, h4⟩ := hok i hi
      exact ⟨v, by rw [h2 i hi, h4], h3⟩

/-- The second fails first, then the first, which is cancelled meanwhile. -/
def exJ : List Ev := [.begin, .notReady 0, .ret false, .notReady 1, .ret false, .fin 1 (.err 3), .ret false,
  .fin 0 (.err 4)]

example : Legal (two .join) {} exJ ∧ (St.run (two .join) exJ).ub = false ∧ (St.run (two .join) exJ).over ∧
    firstErr exJ = some 3 ∧ outcome exJ 0 = some (.err 4) ∧
    (St.run (two .join) exJ).resume (two .join) = .thrown 3 := by decide

example : (St.run (two .join) [.begin, .notReady 0, .ret false, .ready 1 (.ok 6) false, .fin 0 (.ok 5)]).resume (two .join)
    = .values [.ok 5, .ok 6] := by decide

/-- C18, in general: `race` gives index and outcome of the first to complete or begin
a transaction. Two cases are missing because the code is wrong there (below):
awaitables without a value in a ranged race, and those that began a transaction. -/
theorem C18_race_partial {c : Cfg} (hc : c.Ok) (hk : c.kind = .race) {es : List Ev} (hl : Legal c {} es)
    (hu : (St.run c es).ub = false) (ho : (St.run c es).over)
    (hp : ∀ i, c.void i = true → c.ranged = false ∧ Ev.txn i ∉ es) :
    ∃ i o, winner es = some i ∧ outcome es i = some o ∧
      (∀ v, o = .ok v → (St.run c es).resume c = .winner i (if c.allVoid then none else some v)) ∧
      (∀ e, o = .err e → (St.run c es).resume c = .thrown e) := by
  obtain ⟨i, o, h1, h2, h3⟩ := race_winner hc hk hl hu ho
  have hr : RH c (St.run c es) es := by
    rcases RH.run hc hk hl hp with h | h
    · rw [hu] at h; simp at h
    · exact h
  have hw : want es (St.run c es).index = some (i, o) := by rw [h3]; simp [want, h2]
  have e1 := hr.err
  have e2 := hr.result
  rw [hw] at e1 e2
  refine ⟨i, o, h1, h2, fun v hv => ?_, fun e he => ?_⟩
  · subst hv
    simp only [Option.bind_some, errOf, okOf] at e1 e2
    cases hav : c.allVoid
    · simp [St.resume, hk, e1, e2 hav, h3, hav]
    · simp [St.resume, hk, e1, h3, hav]
  · subst he
    simp only [Option.bind_some, errOf] at e1
    simp [St.resume, hk, e1]

/-- C18 for awaitables that have values: nothing is missing. -/
theorem C18_race_values {c : Cfg} (hc : c.Ok) (hk : c.kind = .race) (hv : ∀ i, c.void i = false) {es : List Ev}
    (hl : Legal c {} es) (hu : (St.run c es).ub = false) (ho : (St.run c es).over) :
    ∃ i o, winner es = some i ∧ outcome es i = some o ∧
      (∀ v, o = .ok v → (St.run c es).resume c = .winner i (if c.allVoid then none else some v)) ∧
      (∀ e, o = .err e → (St.run c es).resume c = .thrown e) :=
  C18_race_partial hc hk hl hu ho (fun i h => by rw [hv i] at h; simp at h)

/-- The second begins a transaction, the first is interrupted and fails, the second
completes. -/
def exR : List Ev := [.begin, .notReady 0, .ret false, .notReady 1, .ret false, .txn 1, .fin 0 (.err 4),
  .ret false, .ret false, .ret false, .ret false, .fin 1 (.ok 9), .ret false]

example : Legal (two .race) {} exR ∧ (St.run (two .race) exR).ub = false ∧ (St.run (two .race) exR).over ∧
    winner exR = some 1 ∧ (St.run (two .race) exR).resume (two .race) = .winner 1 (some 9) := by decide

/-- A variadic race of two awaitables without values. -/
def voids (ranged : Bool) : Cfg :=
  { kind := .race, n := 2, order := [0, 1], void := fun _ => true, allVoid := true, ranged := ranged }

theorem voids_ok (r : Bool) : (voids r).Ok := by
  refine ⟨by simp [voids], fun i => ?_, fun _ => rfl⟩
  simp only [voids, List.mem_cons, List.not_mem_nil, or_false]
  omega

example : (∀ i, (voids false).void i = true → (voids false).ranged = false ∧
      Ev.txn i ∉ [Ev.begin, .ready 0 (.err 3) false, .ret false]) ∧
    Legal (voids false) {} [Ev.begin, .ready 0 (.err 3) false, .ret false] ∧
    (St.run (voids false) [Ev.begin, .ready 0 (.err 3) false, .ret false]).over ∧
    (St.run (voids false) [Ev.begin, .ready 0 (.err 3) false, .ret false]).resume (voids false) = .thrown 3 := by
  refine ⟨fun i _ => ⟨rfl, by simp⟩, by decide, by decide, by decide⟩

/-- C18 does not hold: an awaitable without a value began a transaction and then
fails; its exception is lost and the race reports success (race.hpp:224-231,
548-555). -/
theorem C18_void_violated (r : Bool) : ∃ es, Legal (voids r) {} es ∧ (St.run (voids r) es).ub = false ∧
    (St.run (voids r) es).over ∧ winner es = some 1 ∧ outcome es 1 = some (.err 9) ∧
    (St.run (voids r) es).resume (voids r) = .winner 1 none := by
  refine ⟨[.begin, .notReady 0, .ret false, .notReady 1, .ret false, .txn 1, .fin 0 (.err 4),
    .ret false, .ret false, .ret false, .ret false, .fin 1 (.err 9), .ret false], ?_⟩
  cases r <;> decide

/-- The same in a race where another awaitable has a value: the result does not exist
and is read (race.hpp:350). -/
def mixed : Cfg :=
  { kind := .race, n := 2, order := [0, 1], void := fun i => i == 1, allVoid := false }

theorem C18_mixed_violated : ∃ es, Legal mixed {} es ∧ (St.run mixed es).ub = false ∧
    (St.run mixed es).over ∧ winner es = some 1 ∧ outcome es 1 = some (.err 9) ∧
    (St.run mixed es).resume mixed = .undefined :=
  ⟨[.begin, .notReady 0, .ret false, .notReady 1, .ret false, .txn 1, .fin 0 (.err 4),
    .ret false, .ret false, .ret false, .ret false, .fin 1 (.err 9), .ret false], by decide⟩

/-- In a ranged race of awaitables without values, one that is ready after there is a
winner and fails makes the race fail (race.hpp:570-575 does not look at the index):
the first completes while the second is asked whether it is ready. -/
theorem C18_ranged_void_violated : ∃ es, Legal (voids true) {} es ∧ (St.run (voids true) es).ub = false ∧
    (St.run (voids true) es).over ∧ winner es = some 0 ∧ outcome es 0 = some (.ok 1) ∧
    (St.run (voids true) es).resume (voids true) = .thrown 4 :=
  ⟨[.begin, .notReady 0, .ret false, .fin 0 (.ok 1), .ret false, .ret false, .ready 1 (.err 4) false, .ret false],
    by decide⟩

/-- C20, negated: for a race with values whose winner failed, `as_tuple` always reads a
result that does not exist. -/
theorem C20_as_tuple_violated {c : Cfg} (hc : c.Ok) (hk : c.kind = .race) (hv : ∀ i, c.void i = false)
    (hav : c.allVoid = false) {es : List Ev} (hl : Legal c {} es) (hu : (St.run c es).ub = false)
    {i e : Nat} (hw : winner es = some i) (hf : outcome es i = some (.err e)) :
    (St.run c es).resumeTuple c = .undefined := by
  have hr : RH c (St.run c es) es := by
    rcases RH.run hc hk hl (fun i h => by rw [hv i] at h; simp at h) with h | h
    · rw [hu] at h; simp at h
    · exact h
  have h3 : (St.run c es).index = some i := by rw [(All.run hc hl hu).hist.race hk]; exact hw
  have e2 := hr.result hav
  rw [h3] at e2
  simp only [want, Option.bind_some, hf, Option.map_some, okOf] at e2
  simp [St.resumeTuple, hav, e2]

example : Legal (two .race) {} [.begin, .ready 0 (.err 3) false, .ret false] ∧
    winner [.begin, .ready 0 (.err 3) false, .ret false] = some 0 ∧
    (St.run (two .race) [.begin, .ready 0 (.err 3) false, .ret false]).over ∧
    (St.run (two .race) [.begin, .ready 0 (.err 3) false, .ret false]).resumeTuple (two .race) = .undefined := by decide

/-- C20 where the code is right: the winner succeeded, or no awaitable has a value. -/
theorem C20_as_tuple_partial {c : Cfg} (hc : c.Ok) (hk : c.kind = .race) {es : List Ev} (hl : Legal c {} es)
    (hu : (St.run c es).ub = false) (ho : (St.run c es).over)
    (hp : ∀ i, c.void i = true → c.ranged = false ∧ Ev.txn i ∉ es) :
    ∃ i o, winner es = some i ∧ outcome es i = some o ∧
      (∀ v, o = .ok v → (St.run c es).resumeTuple c = .pair none (some (i, if c.allVoid then none else some v))) ∧
      (∀ e, o = .err e → c.allVoid = true → (St.run c es).resumeTuple c = .pair (some e) (some (i, none))) := by
  obtain ⟨i, o, h1, h2, h3⟩ := race_winner hc hk hl hu ho
  have hr : RH c (St.run c es) es := by
    rcases RH.run hc hk hl hp with h | h
    · rw [hu] at h; simp at h
    · exact h
  have hw : want es (St.run c es).index = some (i, o) := by rw [h3]; simp [want, h2]
  have e1 := hr.err
  have e2 := hr.result
  rw [hw] at e1 e2
  refine ⟨i, o, h1, h2, fun v hv => ?_, fun e he hav => ?_⟩
  · subst hv
    simp only [Option.bind_some, errOf, okOf] at e1 e2
    cases hav : c.allVoid
    · simp [St.resumeTuple, e1, e2 hav, h3, hav]
    · simp [St.resumeTuple, e1, h3, hav]
  · subst he
    simp only [Option.bind_some, errOf] at e1
    simp [St.resumeTuple, e1, h3, hav]

example : (St.run (two .race) exR).resumeTuple (two .race) = .pair none (some (1, some 9)) := by decide

end Cobalt.Comb
