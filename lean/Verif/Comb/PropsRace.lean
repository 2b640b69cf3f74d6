import Verif.Comb.RaceAll
import Verif.Comb.TreeLemmas
import Verif.Comb.PropsResult
/-! # C18, C20: what a race reports, in every run -/
namespace Cobalt.Comb

/-- What the property demands of a race: index and outcome of the winner. -/
def Right (c : Cfg) (es : List Ev) (r : Res) : Prop :=
  ∃ i o, winner es = some i ∧ outcome es i = some o ∧
    r = match o with
      | .ok v => .winner i (if c.allVoid then none else some v)
      | .err e => .thrown e

/-- C18, what is reported in general: the last error that was kept, or else the winner, if
it has a value where one is wanted. `Ev.blames` says whose errors are kept. -/
theorem C18_report {c : Cfg} (hc : c.Ok) (hf : c.Uniform) (hk : c.kind = .race) {es : List Ev} (hl : Legal c {} es)
    (hu : (St.run c es).ub = false) (ho : (St.run c es).over) :
    ∃ i o, winner es = some i ∧ outcome es i = some o ∧
      (St.run c es).resume c = match blame c es, o with
        | some e, _ => .thrown e
        | none, .ok v => .winner i (if c.allVoid then none else some v)
        | none, .err _ => if c.allVoid then .winner i none else .undefined := by
  obtain ⟨i, o, h1, h2, h3⟩ := race_winner hc hk hl hu ho
  have hr := RA.run hc hf hk hl hu
  have hw : want es (St.run c es).index = some (i, o) := by rw [h3]; simp [want, h2]
  have e1 := hr.err
  have e2 := hr.result
  rw [hw] at e2
  refine ⟨i, o, h1, h2, ?_⟩
  cases hb : blame c es with
  | some e => rw [hb] at e1; simp [St.resume, hk, e1]
  | none =>
    rw [hb] at e1
    cases hav : c.allVoid with
    | true => cases o <;> simp [St.resume, hk, e1, h3, hav]
    | false =>
      have e2 := e2 hav
      cases o <;> simp only [Option.bind_some, okOf] at e2 <;> simp [St.resume, hk, e1, e2, h3, hav]

/-- C18, exactly: the report is right iff the error kept is that of the winner. -/
theorem C18_exact {c : Cfg} (hc : c.Ok) (hf : c.Uniform) (hk : c.kind = .race) {es : List Ev} (hl : Legal c {} es)
    (hu : (St.run c es).ub = false) (ho : (St.run c es).over) :
    Right c es ((St.run c es).resume c) ↔
      ∃ i o, winner es = some i ∧ outcome es i = some o ∧
        blame c es = match o with | .ok _ => none | .err e => some e := by
  obtain ⟨i, o, h1, h2, h3⟩ := C18_report hc hf hk hl hu ho
  unfold Right
  rw [h3]
  constructor
  · rintro ⟨i', o', h4, h5, h6⟩
    rw [h1] at h4; cases h4
    rw [h2] at h5; cases h5
    refine ⟨i, o, h1, h2, ?_⟩
    cases hb : blame c es <;> cases o <;> simp_all
    split at h6 <;> cases h6
  · rintro ⟨i', o', h4, h5, h6⟩
    rw [h1] at h4; cases h4
    rw [h2] at h5; cases h5
    refine ⟨i, o, h1, h2, ?_⟩
    rw [h6]
    cases o <;> rfl

/-- C18, exactly, for a variadic race: the report is wrong only when the winner has no value, began a
transaction and failed after it was suspended. -/
theorem C18_variadic_exact {c : Cfg} (hc : c.Ok) (hv : c.ranged = false) (hk : c.kind = .race) {es : List Ev}
    (hl : Legal c {} es) (hu : (St.run c es).ub = false) (ho : (St.run c es).over) :
    Right c es ((St.run c es).resume c) ↔
      ¬ ∃ i e, winner es = some i ∧ c.void i = true ∧ Ev.txn i ∈ es ∧ Ev.fin i (.err e) ∈ es := by
  have hf : c.Uniform := fun h => by rw [hv] at h; cases h
  rw [C18_exact hc hf hk hl hu ho]
  have hn := Once.run hc hl hu
  have own : ∀ {w e x}, winner es = some w → x ∈ es → x.blames c w (txnd es w) = some e →
      x.ends = some (w, .err e) := by
    intro w e x _ _ hb
    rcases blames_ends hb with h | ⟨_, _, _, h, _⟩
    · exact h
    · rw [hv] at h; cases h
  constructor
  · rintro ⟨i, o, h1, h2, h3⟩ ⟨i', e, h4, h5, h6, h7⟩
    rw [h1] at h4; cases h4
    have h8 := hn.out _ h7 i _ rfl
    rw [h2] at h8; cases h8
    obtain ⟨x, hx, hb⟩ := blame_mem h1 h3
    have := hn.uniq x hx _ h7 i _ _ (own h1 hx hb) rfl
    subst this
    rw [txnd_iff.2 h6] at hb
    simp [Ev.blames, h5] at hb
  · intro hne
    obtain ⟨i, o, h1, h2, -⟩ := race_winner hc hk hl hu ho
    refine ⟨i, o, h1, h2, ?_⟩
    cases hb : blame c es with
    | some y =>
      obtain ⟨x, hx, hb⟩ := blame_mem h1 hb
      have := hn.out x hx i _ (own h1 hx hb)
      rw [h2] at this; cases this; rfl
    | none =>
      cases o with
      | ok v => rfl
      | err e =>
        exfalso
        obtain ⟨x, hx, hxe⟩ := Tree.ends_of_outcome h2
        have hbl : x.blames c i (txnd es i) = some e := by
          cases x <;> simp only [Ev.ends, reduceCtorEq, Option.some.injEq, Prod.mk.injEq] at hxe
          · obtain ⟨rfl, rfl⟩ := hxe; simp [Ev.blames]
          · obtain ⟨rfl, hxe⟩ := hxe; cases hxe; simp [Ev.blames]
          · obtain ⟨rfl, rfl⟩ := hxe
            simp only [Ev.blames, true_and]
            rw [if_pos]
            rintro ⟨h5, h6⟩
            exact hne ⟨_, e, h1, h5, txnd_iff.1 h6, hx⟩
        obtain ⟨e', he'⟩ := blame_some h1 hx hbl
        rw [hb] at he'; cases he'

/-- C20, what `as_tuple` reports in general. -/
theorem C20_report {c : Cfg} (hc : c.Ok) (hf : c.Uniform) (hk : c.kind = .race) {es : List Ev} (hl : Legal c {} es)
    (hu : (St.run c es).ub = false) (ho : (St.run c es).over) :
    ∃ i o, winner es = some i ∧ outcome es i = some o ∧
      (St.run c es).resumeTuple c =
        if c.allVoid then .pair (blame c es) (some (i, none)) else
        match o with
        | .ok v => .pair (blame c es) (some (i, some v))
        | .err _ => .undefined := by
  obtain ⟨i, o, h1, h2, h3⟩ := race_winner hc hk hl hu ho
  have hr := RA.run hc hf hk hl hu
  have hw : want es (St.run c es).index = some (i, o) := by rw [h3]; simp [want, h2]
  have e1 := hr.err
  have e2 := hr.result
  rw [hw] at e2
  refine ⟨i, o, h1, h2, ?_⟩
  cases hav : c.allVoid with
  | true => simp [St.resumeTuple, e1, h3, hav]
  | false =>
    have e2 := e2 hav
    cases o <;> simp only [Option.bind_some, okOf] at e2 <;> simp [St.resumeTuple, e1, e2, h3, hav]

/-- C20, exactly: `as_tuple` gives something iff the winner succeeded or
there are no values. -/
theorem C20_exact {c : Cfg} (hc : c.Ok) (hf : c.Uniform) (hk : c.kind = .race) {es : List Ev} (hl : Legal c {} es)
    (hu : (St.run c es).ub = false) (ho : (St.run c es).over) :
    (St.run c es).resumeTuple c ≠ .undefined ↔
      c.allVoid = true ∨ ∃ i v, winner es = some i ∧ outcome es i = some (.ok v) := by
  obtain ⟨i, o, h1, h2, h3⟩ := C20_report hc hf hk hl hu ho
  rw [h3]
  cases hav : c.allVoid with
  | true => simp
  | false =>
    cases o with
    | ok v => simp [h1, h2]
    | err e => simp [h1, h2]

/-- The run of `C18_void_violated`: the winner fails, nothing is kept. -/
def exV : List Ev := [.begin, .notReady 0, .ret false, .notReady 1, .ret false, .txn 1, .fin 0 (.err 4),
    .ret false, .ret false, .ret false, .ret false, .fin 1 (.err 9), .ret false]

example : Legal (voids false) {} exV ∧ (St.run (voids false) exV).over ∧ blame (voids false) exV = none ∧
    (Ev.txn 1 ∈ exV ∧ Ev.fin 1 (.err 9) ∈ exV) ∧ outcome exV 1 = some (.err 9) := by decide

/-- The run of `C18_ranged_void_violated`: the error of the loser is kept. -/
def exL : List Ev :=
  [.begin, .notReady 0, .ret false, .fin 0 (.ok 1), .ret false, .ret false, .ready 1 (.err 4) false, .ret false]

example : (voids true).Uniform := fun _ _ => rfl

example : Legal (voids true) {} exL ∧ (St.run (voids true) exL).over ∧ winner exL = some 0 ∧
    blame (voids true) exL = some 4 ∧ (St.run (voids true) exL).resumeTuple (voids true) = .pair (some 4) (some (0, none)) := by
  decide

example : blame (two .race) exR = none ∧ Right (two .race) exR ((St.run (two .race) exR).resume (two .race)) :=
  ⟨by decide, 1, .ok 9, by decide, by decide, by decide⟩

end Cobalt.Comb
