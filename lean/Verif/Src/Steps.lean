import Verif.Src.Lemmas
/-! Each event keeps the invariant, or uses what is gone. -/
namespace Cobalt.Src
open Cobalt.Cst (CT Filter)

theorem Inv.fire {s : St} (h : Inv s) {g k : Nat} {ct : CT} (hh : (s.sg g).handler = some k) :
    Inv ((s.fire k ct).note (.emit g ct)) := by
  have e1 := fire_got h (ct := ct) hh
  have e2 := h.hk g k hh
  have e3 := hears_iff h hh
  obtain ⟨a1, a2, a3, a4, a5, a6, a7, a8, a9, b1, b2, b3, b4, b5, b6, b7, b8, b9, c1, c2, c3, c4,
    c5, c6, c7, c8, c9⟩ := h
  constructor
  all_goals dsimp only [St.note, St.fire] at *
  case data =>
    intro c j hi ha
    by_cases hj : j = k
    · subst hj
      have h1 := b9 c j hi e2.2
      have h2 := (e3 c).2 hi
      simp [upd, heard, filters, h1.1, h1.2.1, h2]
    · have h1 : (s.im j).alive = true := by simpa [upd, hj] using ha
      have h2 := b9 c j hi h1
      have h3 : hears c g s.log = false := by
        cases h4 : hears c g s.log with
        | false => rfl
        | true => have := (e3 c).1 h4; grind
      simp [upd, hj, heard, filters, h2.1, h2.2.1, h2.2.2, h3]
  case data0 =>
    intro c hi
    have h3 : hears c g s.log = false := by
      cases h4 : hears c g s.log with
      | false => rfl
      | true => have := (e3 c).1 h4; grind
    simp [heard, h3, c1 c hi]
  case got => rw [e1]; rfl
  case src => clear e1 e3 a2 a3 a4 a5 a6 a7 a8 a9 b1 b2 b3 b4 b5 b6 b7 b8 b9 c1 c2 c3 c4 c5 c6 c7 c8 c9; src_grind
  case waits => clear e1 e3 a1 a3 a4 a5 a6 a7 a8 a9 b1 b2 b3 b4 b5 b6 b7 b8 b9 c1 c2 c3 c4 c5 c6 c7 c8 c9; src_grind
  case thr => clear e1 e3 a1 a2 a4 a5 a6 a7 a8 a9 b1 b2 b3 b4 b5 b6 b7 b8 b9 c1 c2 c3 c4 c5 c6 c7 c8 c9; src_grind
  case sgA => clear e1 e3 a1 a2 a3 a5 a6 a7 a8 a9 b1 b2 b3 b4 b5 b6 b7 b8 b9 c1 c2 c3 c4 c5 c6 c7 c8 c9; src_grind
  case coD => clear e1 e3 a1 a2 a3 a4 a6 a7 a8 a9 b1 b2 b3 b4 b5 b6 b7 b8 b9 c1 c2 c3 c4 c5 c6 c7 c8 c9; src_grind
  case sgD => clear e1 e3 a1 a2 a3 a4 a5 a7 a8 a9 b1 b2 b3 b4 b5 b6 b7 b8 b9 c1 c2 c3 c4 c5 c6 c7 c8 c9; src_grind
  case cN => clear e1 e3 a1 a2 a3 a4 a5 a6 a8 a9 b1 b2 b3 b4 b5 b6 b7 b8 b9 c1 c2 c3 c4 c5 c6 c7 c8 c9; src_grind
  case gN => clear e1 e3 a1 a2 a3 a4 a5 a6 a7 a9 b1 b2 b3 b4 b5 b6 b7 b8 b9 c1 c2 c3 c4 c5 c6 c7 c8 c9; src_grind
  case hk => clear e1 e3 a1 a2 a3 a4 a5 a6 a7 a8 b1 b2 b3 b4 b5 b6 b7 b8 b9 c1 c2 c3 c4 c5 c6 c7 c8 c9; src_grind
  case hinj => clear e1 e3 a1 a2 a3 a4 a5 a6 a7 a8 a9 b2 b3 b4 b5 b6 b7 b8 b9 c1 c2 c3 c4 c5 c6 c7 c8 c9; src_grind
  case ik => clear e1 e3 a1 a2 a3 a4 a5 a6 a7 a8 a9 b1 b3 b4 b5 b6 b7 b8 b9 c1 c2 c3 c4 c5 c6 c7 c8 c9; src_grind
  case iinj => clear e1 e3 a1 a2 a3 a4 a5 a6 a7 a8 a9 b1 b2 b4 b5 b6 b7 b8 b9 c1 c2 c3 c4 c5 c6 c7 c8 c9; src_grind
  case si => clear e1 e3 a1 a2 a3 a4 a5 a6 a7 a8 a9 b1 b2 b3 b5 b6 b7 b8 b9 c1 c2 c3 c4 c5 c6 c7 c8 c9; src_grind
  case own1 => clear e1 e3 a1 a2 a3 a4 a5 a6 a7 a8 a9 b1 b2 b3 b4 b6 b7 b8 b9 c1 c2 c3 c4 c5 c6 c7 c8 c9; src_grind
  case own2 => clear e1 e3 a1 a2 a3 a4 a5 a6 a7 a8 a9 b1 b2 b3 b4 b5 b7 b8 b9 c1 c2 c3 c4 c5 c6 c7 c8 c9; src_grind
  case own2' => clear e1 e3 a1 a2 a3 a4 a5 a6 a7 a8 a9 b1 b2 b3 b4 b5 b6 b8 b9 c1 c2 c3 c4 c5 c6 c7 c8 c9; src_grind
  case own3 => clear e1 e3 a2 a3 a4 a5 a6 a7 a8 b1 b3 b4 b5 b6 b7 b9 c1 c2 c3 c4 c5 c6 c7 c8 c9; src_grind
  case slot => clear e1 e3 a1 a2 a3 a4 a5 a6 a7 a8 a9 b1 b2 b3 b4 b5 b6 b7 b8 b9 c1 c3 c4 c5 c6 c7 c8 c9; src_grind
  case stale => clear e1 e3 a1 a2 a3 a4 a5 a6 a7 a8 a9 b1 b2 b3 b4 b5 b6 b7 b8 b9 c1 c2 c4 c5 c6 c7 c8 c9; src_grind
  case jN => clear e1 e3 a1 a2 a3 a4 a5 a6 a7 a8 a9 b1 b2 b3 b4 b5 b6 b7 b8 b9 c1 c2 c3 c5 c6 c7 c8 c9; src_grind
  case wN => clear e1 e3 a1 a2 a3 a4 a5 a6 a7 a8 a9 b1 b2 b3 b4 b5 b6 b7 b8 b9 c1 c2 c3 c4 c6 c7 c8 c9; src_grind
  case iN => clear e1 e3 a1 a2 a3 a4 a5 a6 a7 a8 b1 b2 b3 b4 b5 b6 b7 b8 b9 c1 c2 c3 c4 c5 c7 c8 c9; src_grind
  case honest => clear e1 e3 a1 a2 a3 a4 a5 a6 a7 a8 a9 b1 b2 b3 b4 b5 b6 b7 b8 b9 c1 c2 c3 c4 c5 c6 c7 c9; src_grind
  case fine => clear e1 e3 a1 a2 a3 a4 a5 a6 a7 a8 a9 b1 b2 b3 b4 b5 b6 b7 b8 b9 c1 c2 c3 c4 c5 c6 c7 c8; src_grind

/-- Each event. -/
theorem Inv.step {s : St} (h : Inv s) (hu : s.ub = false) (e : Ev) :
    (Inv (s.step e) ∧ (s.step e).ub = false) ∨
      ((s.step e).ub = true ∧ ∃ a, (s.step e).log = a :: s.log ∧ bad a s.log = true) := by
  cases e with
  | call => exact Or.inl ⟨h.call, hu⟩
  | make => exact Or.inl ⟨h.make, hu⟩
  | drop g => exact Or.inl ⟨h.drop g, by dsimp only [St.step]; split <;> exact hu⟩
  | leave c => exact Or.inl ⟨h.leave c, by dsimp only [St.step]; split <;> exact hu⟩
  | opEnds c => exact Or.inl ⟨h.opEnds c, by dsimp only [St.step]; split <;> exact hu⟩
  | throwIf c b => exact Or.inl ⟨h.throwIf c b, by dsimp only [St.step]; split <;> exact hu⟩
  | ret c => exact Or.inl ⟨h.ret c, by dsimp only [St.step]; split <;> exact hu⟩
  | take c g =>
    dsimp only [St.step]
    split
    next hr =>
      obtain ⟨h1, h2⟩ := runs_iff.1 hr
      by_cases ha : (s.sg g).alive = true
      · exact Or.inl ⟨h.renew_took h1 h2 ha, by simp [St.renew, ha, St.note, hu]⟩
      · refine Or.inr ⟨by simp [St.renew, ha, St.note], .took c g,
          by simp [St.renew, ha, St.note], ?_⟩
        have := h.sgA g
        simp only [bad]
        grind
    next => exact Or.inl ⟨h, hu⟩
  | reset c i o =>
    dsimp only [St.step]
    split
    next hr =>
      obtain ⟨h1, h2⟩ := runs_iff.1 hr
      split
      next g hs =>
        by_cases ha : (s.sg g).alive = true
        · exact Or.inl ⟨h.renew_reset h1 h2 hs ha, by simp [St.renew, ha, St.note, hu]⟩
        · refine Or.inr ⟨by simp [St.renew, ha, St.note], .reset c i o,
            by simp [St.renew, ha, St.note], ?_⟩
          have := h.sgA g
          have := h.src c
          simp only [bad]
          grind
      next hs => exact Or.inl ⟨h.reset0 hs, hu⟩
    next => exact Or.inl ⟨h, hu⟩
  | await c =>
    dsimp only [St.step]
    split
    next hr =>
      obtain ⟨h1, h2⟩ := runs_iff.1 hr
      split
      next hc =>
        obtain ⟨g, hg, ho⟩ := cancelled_none h hc
        exact Or.inr ⟨rfl, .await c s.nk, rfl, by simp [bad, Act.use, hg, ho]⟩
      next ct hc =>
        split
        next ht => exact Or.inl ⟨h.threw hc ht, hu⟩
        next ht => exact Or.inl ⟨h.await hc h1 h2 ht, hu⟩
    next => exact Or.inl ⟨h, hu⟩
  | ask c =>
    dsimp only [St.step]
    split
    next hr =>
      split
      next hc =>
        obtain ⟨g, hg, ho⟩ := cancelled_none h hc
        exact Or.inr ⟨rfl, .asked c .none_, rfl, by simp [bad, Act.use, hg, ho]⟩
      next ct hc => exact Or.inl ⟨h.asked hc, hu⟩
    next => exact Or.inl ⟨h, hu⟩
  | emit g ct =>
    dsimp only [St.step]
    split
    next =>
      split
      next k hk => exact Or.inl ⟨h.fire hk, hu⟩
      next hk => exact Or.inl ⟨h.emit0 hk, hu⟩
    next => exact Or.inl ⟨h, hu⟩

/-- After any events. -/
theorem run_inv (es : List Ev) :
    (Inv (St.run {} es) ∧ (St.run {} es).ub = false) ∨
      ((St.run {} es).ub = true ∧
        ∃ a l, (St.run {} es).log = a :: l ∧ bad a l = true ∧ Fine l ∧ Honest l) := by
  have key : ∀ es (s : St), ((Inv s ∧ s.ub = false) ∨ (s.ub = true ∧
        ∃ a l, s.log = a :: l ∧ bad a l = true ∧ Fine l ∧ Honest l)) →
      ((Inv (s.run es) ∧ (s.run es).ub = false) ∨
      ((s.run es).ub = true ∧
        ∃ a l, (s.run es).log = a :: l ∧ bad a l = true ∧ Fine l ∧ Honest l)) := by
    intro es
    induction es with
    | nil => intro s h; exact h
    | cons e es ih =>
      intro s h
      refine ih _ ?_
      rcases h with ⟨h, hu⟩ | ⟨hu, h⟩
      · dsimp only
        rw [if_neg (by simp [hu])]
        rcases h.step hu e with h' | ⟨h1, a, h2, h3⟩
        · exact Or.inl h'
        · exact Or.inr ⟨h1, a, s.log, h2, h3, h.fine, h.honest⟩
      · dsimp only
        rw [if_pos hu]
        exact Or.inr ⟨hu, h⟩
  exact key es {} (Or.inl ⟨Inv.start, rfl⟩)

/-- What is used that is gone is used last. -/
theorem fine_iff (es : List Ev) : (St.run {} es).ub = false ↔ Fine (St.run {} es).log := by
  rcases run_inv es with ⟨h, hu⟩ | ⟨hu, a, l, h1, h2, -⟩
  · exact ⟨fun _ => h.fine, fun _ => hu⟩
  · constructor
    · intro h; rw [hu] at h; exact absurd h (by simp)
    · intro h
      rw [h1] at h
      have := h.1
      rw [h2] at this
      exact absurd this (by simp)

/-- A source nobody shares is held by the one whose source it is, and exists. -/
theorem exclusive_holds : ∀ (l : List Act), Exclusive l → ∀ c g, src c l = some g →
    holder g l = some c ∧ exists_ g l = true := by
  intro l
  induction l with
  | nil => intro _ c g h; exact absurd h (by simp [src])
  | cons a l ih =>
    intro h c g hs
    cases a with
    | took d k =>
      obtain ⟨⟨h1, h2⟩, h3⟩ := h
      have := ih h3 c g
      have := h2 c
      grind [src, holder, exists_]
    | gone k =>
      obtain ⟨h1, h2⟩ := h
      have := ih h2 c g
      have := h1 c
      grind [src, holder, exists_]
    | reset d i o =>
      have h3 : Exclusive l := h
      have e1 := ih h3 c g
      have e2 := ih h3 d g
      grind [src, holder, exists_]
    | _ =>
      have h3 : Exclusive l := h
      have e1 := ih h3 c g
      grind [src, holder, exists_]

theorem exclusive_fine : ∀ (l : List Act), Exclusive l → Fine l := by
  intro l
  induction l with
  | nil => intro _; trivial
  | cons a l ih =>
    intro h
    cases a with
    | took d k =>
      obtain ⟨⟨h1, h2⟩, h3⟩ := h
      exact ⟨by simp [bad, h1], ih h3⟩
    | gone k => exact ⟨rfl, ih h.2⟩
    | reset d i o =>
      have h3 : Exclusive l := h
      refine ⟨?_, ih h3⟩
      cases hs : src d l with
      | none => simp [bad, hs]
      | some g => simp [bad, hs, (exclusive_holds l h3 d g hs).2]
    | await c k =>
      have h3 : Exclusive l := h
      refine ⟨?_, ih h3⟩
      cases hs : src c l with
      | none => simp [bad, Act.use, hs]
      | some g => simp [bad, Act.use, hs, (exclusive_holds l h3 c g hs).1]
    | threw c =>
      have h3 : Exclusive l := h
      refine ⟨?_, ih h3⟩
      cases hs : src c l with
      | none => simp [bad, Act.use, hs]
      | some g => simp [bad, Act.use, hs, (exclusive_holds l h3 c g hs).1]
    | asked c ct =>
      have h3 : Exclusive l := h
      refine ⟨?_, ih h3⟩
      cases hs : src c l with
      | none => simp [bad, Act.use, hs]
      | some g => simp [bad, Act.use, hs, (exclusive_holds l h3 c g hs).1]
    | _ => exact ⟨rfl, ih h⟩

theorem exclusive_suffix : ∀ (l1 l2 : List Act), Exclusive (l1 ++ l2) → Exclusive l2 := by
  intro l1
  induction l1 with
  | nil => intro l2 h; exact h
  | cons a l ih =>
    intro l2 h
    apply ih
    cases a with
    | took d k => exact h.2
    | gone k => exact h.2
    | _ => exact h

theorem told_mem : ∀ (l1 l2 : List Act) (x : Nat × CT), x ∈ told l2 → x ∈ told (l1 ++ l2) := by
  intro l1
  induction l1 with
  | nil => intro l2 x h; exact h
  | cons a l ih =>
    intro l2 x h
    have := ih l2 x h
    cases a with
    | emit g ct => exact List.mem_append_right _ this
    | _ => exact this

/-- Every round of the task of the example ends in such a state. -/
structure Ready (s : St) : Prop where
  alive : (s.co 0).alive = true
  waits : (s.co 0).waits = none
  impl : (s.co 0).impl = some 0
  src : (s.co 0).src = some 0
  im : (s.im 0).alive = true
  can : (s.im 0).cancelled = .none_
  inF : (s.im 0).inF = Cst.enableTotal
  outF : (s.im 0).outF = Cst.enableTotal
  sg : (s.sg 0) = { alive := true, handler := some 0 }
  ub : s.ub = false
  got : s.got = []

theorem Ready.round {s : St} (h : Ready s) : Ready (s.run [.await 0, .opEnds 0]) := by
  obtain ⟨h1, h2, h3, h4, h5, h6, h7, h8, h9, h10, h11⟩ := h
  constructor <;>
    simp [St.run, St.step, St.runs, St.cancelled, St.place, St.note, upd, *]

theorem run_append (s : St) (a b : List Ev) : s.run (a ++ b) = (s.run a).run b := by
  simp [St.run]

theorem run_ub (s : St) (h : s.ub = true) (es : List Ev) : s.run es = s := by
  induction es with
  | nil => rfl
  | cons e es ih => simpa [St.run, h] using ih

theorem ready_rounds (s : St) (h : Ready s) (n : Nat) :
    Ready (s.run (List.replicate n [Ev.await 0, .opEnds 0]).flatten) := by
  induction n generalizing s with
  | zero => exact h
  | succ n ih =>
    rw [List.replicate_succ, List.flatten_cons, run_append]
    exact ih _ h.round

end Cobalt.Src
