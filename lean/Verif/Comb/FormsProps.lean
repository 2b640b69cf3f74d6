import Verif.Comb.FormsModel
import Verif.Comb.PropsResult
/-!
# C77: the forms of awaiting `join` and `race` agree
-/
namespace Cobalt.Comb

/-- What the tuple of a join is to be: the exception that was first in time, or none and the values
(nothing if there are none). -/
def TupleOk (c : Cfg) (es : List Ev) (f : Form) : Prop :=
  match firstErr es with
  | some e => ∃ l, f = .tuple (some e) l
  | none => ∃ l, f = .tuple none l ∧
    if c.allVoid then l = [] else l.length = c.n ∧ ∀ i, i < c.n → l[i]? = outcome es i

/-- The same for the result of a join. -/
def ResultOk (c : Cfg) (es : List Ev) (f : Form) : Prop :=
  match firstErr es with
  | some e => f = .failed e
  | none => ∃ l, f = .ok (.values l) ∧
    if c.allVoid then l = [] else l.length = c.n ∧ ∀ i, i < c.n → l[i]? = outcome es i

/-- **C77**: `as_tuple` and `as_result` of a join give what happened, whatever exception is being
handled. -/
def C77 : Prop := ∀ (c : Cfg), c.Ok → c.kind = .join → ∀ es, Legal c {} es →
  (St.run c es).ub = false → (St.run c es).over → ∀ cur,
    TupleOk c es ((St.run c es).joinTuple c cur) ∧ ResultOk c es ((St.run c es).joinResult c)

/-- The values of a join that succeeded. -/
theorem join_all {c : Cfg} (hc : c.Ok) (hk : c.kind = .join) {es : List Ev} (hl : Legal c {} es)
    (hu : (St.run c es).ub = false) (ho : (St.run c es).over) (he : firstErr es = none) :
    ∃ l, (St.run c es).all c = some l ∧ l.length = c.n ∧ ∀ i, i < c.n → l[i]? = outcome es i := by
  obtain ⟨l, h1, h2, h3⟩ := (C15_join hc hk hl hu ho).2 he
  refine ⟨l, ?_, h2, fun i hi => ?_⟩
  · have herr := (All.run hc hl hu).hist.joinErr hk
    rw [he] at herr
    simp only [St.resume, hk, herr] at h1
    unfold St.all
    split at h1
    · rename_i h
      rw [if_pos h]
      exact congrArg _ (Res.values.inj h1)
    · cases h1
  · obtain ⟨v, h4, h5⟩ := h3 i hi
    rw [h4, h5]

/-- **C77, exactly**, for `as_tuple`: right for a range of values, for arguments that are all `void`,
and for other arguments if there was a failure or nothing is being handled. -/
theorem C77_tuple_exact {c : Cfg} (hc : c.Ok) (hk : c.kind = .join) {es : List Ev}
    (hl : Legal c {} es) (hu : (St.run c es).ub = false) (ho : (St.run c es).over)
    (cur : Option Nat) :
    TupleOk c es ((St.run c es).joinTuple c cur) ↔
      if c.ranged then c.allVoid = false
      else c.allVoid = true ∨ firstErr es ≠ none ∨ cur = none := by
  have herr := (All.run hc hl hu).hist.joinErr hk
  unfold TupleOk St.joinTuple
  cases hf : firstErr es with
  | some e =>
    rw [hf] at herr
    cases hr : c.ranged <;> cases hv : c.allVoid <;> simp [herr]
  | none =>
    rw [hf] at herr
    obtain ⟨l, h1, h2, h3⟩ := join_all hc hk hl hu ho hf
    cases hr : c.ranged <;> cases hv : c.allVoid <;> simp [herr, h1]
    · constructor
      · rintro ⟨l', ⟨h, -⟩, -⟩; exact h
      · exact fun h => ⟨l, ⟨h, rfl⟩, h2, h3⟩
    · exact ⟨h2, h3⟩

/-- **C77, exactly**, for `as_result`: right for a range of values and for arguments that are all
`void`, refused by the compiler otherwise. -/
theorem C77_result_exact {c : Cfg} (hc : c.Ok) (hk : c.kind = .join) {es : List Ev}
    (hl : Legal c {} es) (hu : (St.run c es).ub = false) (ho : (St.run c es).over) :
    (ResultOk c es ((St.run c es).joinResult c) ↔ c.ranged ≠ c.allVoid) ∧
    (c.ranged = c.allVoid → (St.run c es).joinResult c = .illFormed) := by
  have herr := (All.run hc hl hu).hist.joinErr hk
  unfold ResultOk St.joinResult
  cases hf : firstErr es with
  | some e =>
    rw [hf] at herr
    cases hr : c.ranged <;> cases hv : c.allVoid <;> simp [herr]
  | none =>
    rw [hf] at herr
    obtain ⟨l, h1, h2, h3⟩ := join_all hc hk hl hu ho hf
    cases hr : c.ranged <;> cases hv : c.allVoid <;> simp [herr, h1]
    exact ⟨h2, h3⟩

/-- **C77, what holds**: in coroutines that do not run inside of a handler `as_tuple` gives what
happened, and so does `as_result` of a range.
Missing: success inside of a handler (`C77_violated`), and what does not compile. -/
theorem C77_partial {c : Cfg} (hc : c.Ok) (hk : c.kind = .join) (hv : c.allVoid = false)
    {es : List Ev} (hl : Legal c {} es) (hu : (St.run c es).ub = false) (ho : (St.run c es).over) :
    TupleOk c es ((St.run c es).joinTuple c none) ∧
    (c.ranged = true → ResultOk c es ((St.run c es).joinResult c)) := by
  refine ⟨(C77_tuple_exact hc hk hl hu ho none).mpr ?_, fun hr => ?_⟩
  · split
    · exact hv
    · exact .inr (.inr rfl)
  · exact (C77_result_exact hc hk hl hu ho).1.mpr (by rw [hr, hv]; simp)

/-- Both complete, the second one first. -/
def exJok : List Ev := [.begin, .notReady 0, .ret false, .notReady 1, .ret false, .fin 1 (.ok 6),
  .fin 0 (.ok 5)]

example : TupleOk (two .join) exJok ((St.run (two .join) exJok).joinTuple (two .join) none) ∧
    (St.run (two .join) exJok).joinTuple (two .join) none = .tuple none [.ok 5, .ok 6] :=
  ⟨(C77_partial (two_ok .join) rfl rfl (by decide) (by decide) (by decide)).1, by decide⟩

/-- **C77 is violated**: inside of a handler a join that succeeded gives the exception that is being
handled, beside its values. -/
theorem C77_violated : ¬ C77 := by
  intro h
  have := (h (two .join) (two_ok .join) rfl exJok (by decide) (by decide) (by decide) (some 9)).1
  have := (C77_tuple_exact (two_ok .join) rfl (by decide) (by decide) (by decide) _).mp this
  exact absurd this (by decide)

/-- The same, for every join of values that succeeds, and every exception. -/
theorem C77_foreign {c : Cfg} (hc : c.Ok) (hk : c.kind = .join) (hr : c.ranged = false)
    (hv : c.allVoid = false) {es : List Ev} (hl : Legal c {} es) (hu : (St.run c es).ub = false)
    (ho : (St.run c es).over) (he : firstErr es = none) (e : Nat) :
    ∃ l, (St.run c es).joinTuple c (some e) = .tuple (some e) l ∧
      (St.run c es).resume c = .values l := by
  have herr := (All.run hc hl hu).hist.joinErr hk
  rw [he] at herr
  obtain ⟨l, h1, -⟩ := join_all hc hk hl hu ho he
  refine ⟨l, by simp [St.joinTuple, hr, hv, herr, h1], ?_⟩
  unfold St.all at h1
  split at h1
  · rename_i h
    simp only [St.resume, hk, herr, if_pos h]
    exact congrArg _ (Option.some.inj h1)
  · cases h1

example : (St.run (two .join) exJok).joinTuple (two .join) (some 9) = .tuple (some 9) [.ok 5, .ok 6] := by
  decide

/-- **C77** for race: `as_result` gives what the plain form does. -/
theorem C77_race {c : Cfg} (hk : c.kind = .race) (s : St) :
    (∀ e, s.resume c = .thrown e ↔ s.raceResult c = .failed e) ∧
    (∀ i v, s.resume c = .winner i v ↔ s.raceResult c = .ok (.winner i v)) ∧
    (s.resume c = .undefined ↔ s.raceResult c = .undefined) := by
  unfold St.resume St.raceResult
  rw [hk]
  cases s.err with
  | some e => simp
  | none =>
    cases c.allVoid with
    | true => cases s.index <;> simp
    | false => rcases s.result with _ | ⟨i, v⟩ <;> cases s.index <;> simp

example : (St.run (two .race) exR).raceResult (two .race) = .ok (.winner 1 (some 9)) := by decide

end Cobalt.Comb
