import Verif.Nurse.Hist

/-!
# Every run
-/
namespace Cobalt.Nurse

open Group (Mem)

theorem step_eq {s : St} {e : Ev} (hu : s.ub = false) (hc : s.can e = true) : s.step e = s.act e := by
  simp [St.step, hu, hc]

/-- Uses of the group without adding or ending coroutines. -/
theorem Inv.quiet {h : List Group.Ev} {es : List Ev} {l l' : List Nat} {s : St} {ge : Group.Ev} {e : Ev}
    (i : Inv h es l s)
    (hp : s.phase ≠ .over) (hc : s.g.can ge = true) (hq : Group.quiet ge = true)
    (hfe : funcEnd [e] = none) (hpe : pushes [e] = []) (hee : ∀ id, ended id [e] = false)
    (hl : ∀ id ∈ l, id ∈ l') :
    Inv (h ++ [ge]) (es ++ [e]) l' (s.use ge) := by
  have h1 : pushes (es ++ [e]) = pushes es := by rw [pushes_append, hpe]; simp
  have h2 : ∀ id, ended id (es ++ [e]) = ended id es := fun id => by rw [ended_append, hee]; simp
  have := i.use (r := s.running) hp hc hfe (by rw [h1, Group.pushes_quiet hq, i.pushed]) hl
    (fun id hx => by subst hx; cases hq)
    (fun id hx => by rw [Group.outcome_quiet hq] at hx; rw [h2]; exact i.done id hx)
    (fun id hx => by rw [Group.outcome_quiet hq]; rw [h2] at hx; exact i.known id hx)
    (fun id => by rw [h1, h2]; exact i.runs id)
  have he : ({ s.use ge with running := s.running } : St) = s.use ge := by
    unfold St.use St.settle
    rw [if_neg hp]
    split <;> rfl
  exact he ▸ this

theorem use_over (s : St) (ge : Group.Ev) (hp : s.phase = .over) : (s.use ge).ub = true := by
  simp [St.use, hp]

theorem use_ub (s : St) (ge : Group.Ev) (hp : s.phase ≠ .over) : (s.use ge).ub = s.ub := by
  unfold St.use St.settle
  rw [if_neg hp]
  split <;> rfl

theorem use_g (s : St) (ge : Group.Ev) (hp : s.phase ≠ .over) : (s.use ge).g = s.g.step ge := by
  unfold St.use St.settle
  rw [if_neg hp]
  split <;> rfl

/-- Who leaves the group has ended or was added while all was being awaited. -/
theorem Inv.kept {h : List Group.Ev} {es : List Ev} {l l' : List Nat} {s : St} {ge : Group.Ev}
    (i : Inv h es l s) (k : Kept l s) (hc : s.g.can ge = true)
    (hn : (∃ w order, ge = .waitOne w order) → s.g.wait = none) (hl : ∀ id ∈ l, id ∈ l') :
    ∀ m ∈ (s.g.step ge).gone, m.out = none → m.id ∈ l' := by
  intro m hm ho
  rw [Group.step_eq i.grp.ub hc] at hm
  rcases gone_new i.grp hc hn hm with a | a | ⟨w, ids, hw, a, b⟩
  · exact hl _ (k m a ho)
  · rw [ho] at a; cases a
  · exact hl _ ((i.all w ids hw m.id b).resolve_left a)

/-- A use of the group after the end of `with`. -/
def Bad (s : St) : Prop := s.phase = .over ∧ s.running ≠ []

theorem Inv.step {h : List Group.Ev} {es : List Ev} {l : List Nat} {s : St} {e : Ev} (i : Inv h es l s)
    (hu : s.ub = false) (hc : s.can e = true) :
    (Bad s ∧ (s.step e).ub = true) ∨
    (s.step e).ub = false ∧
    (∃ h', Inv h' (es ++ [e]) (l ++ late s [e]) (s.step e)) ∧
    (Kept l s → ((∃ w order, e = .waitOne w order) → s.g.wait = none) → Kept (l ++ late s [e]) (s.step e)) := by
  rw [step_eq hu hc]
  have hl : ∀ id ∈ l, id ∈ l ++ late s [e] := fun id => List.mem_append_left _
  -- uses by coroutines of the group and by `func`
  have quiet : ∀ (ge : Group.Ev) (a : Option Nat), s.acts a = true → s.act e = s.use ge → s.g.can ge = true →
      Group.quiet ge = true → funcEnd [e] = none → pushes [e] = [] → (∀ id, ended id [e] = false) →
      ((∃ w order, ge = .waitOne w order) → ∃ w order, e = .waitOne w order) →
      (Bad s ∧ (s.act e).ub = true) ∨ (s.act e).ub = false ∧
      (∃ h', Inv h' (es ++ [e]) (l ++ late s [e]) (s.act e)) ∧
      (Kept l s → ((∃ w order, e = .waitOne w order) → s.g.wait = none) → Kept (l ++ late s [e]) (s.act e)) := by
    intro ge a ha he hg hq h1 h2 h3 h4
    rw [he]
    by_cases hp : s.phase = .over
    · refine Or.inl ⟨⟨hp, ?_⟩, use_over _ _ hp⟩
      cases a with
      | none => simp [St.acts, hp] at ha
      | some id => exact fun h0 => by simp [St.acts, h0] at ha
    · refine Or.inr ⟨by rw [use_ub _ _ hp, hu], ⟨_, i.quiet hp hg hq h1 h2 h3 hl⟩, fun k hn => ?_⟩
      unfold Kept
      rw [use_g _ _ hp]
      exact i.kept k hg (fun x => hn (h4 x)) hl
  cases e with
  | cancel a ct => exact quiet (.cancel ct) a hc rfl rfl rfl rfl rfl (fun _ => rfl) (fun ⟨_, _, h⟩ => by cases h)
  | reap a => exact quiet .reap a hc rfl rfl rfl rfl rfl (fun _ => rfl) (fun ⟨_, _, h⟩ => by cases h)
  | waitAll w =>
    simp only [St.can, Bool.and_eq_true] at hc
    exact quiet (.waitAll w) none hc.1 rfl hc.2 rfl rfl rfl (fun _ => rfl) (fun ⟨_, _, h⟩ => by cases h)
  | waitOne w order =>
    simp only [St.can, Bool.and_eq_true] at hc
    exact quiet (.waitOne w order) none hc.1 rfl hc.2 rfl rfl rfl (fun _ => rfl) (fun _ => ⟨w, order, rfl⟩)
  | push a id =>
    simp only [St.can, Bool.and_eq_true] at hc
    change (Bad s ∧ ({ s.use (.push id) with running := id :: s.running } : St).ub = true) ∨
      ({ s.use (.push id) with running := id :: s.running } : St).ub = false ∧
      (∃ h', Inv h' _ _ ({ s.use (.push id) with running := id :: s.running } : St)) ∧
      (_ → _ → Kept _ ({ s.use (.push id) with running := id :: s.running } : St))
    by_cases hp : s.phase = .over
    · refine Or.inl ⟨⟨hp, ?_⟩, use_over _ _ hp⟩
      have ha := hc.1.1
      cases a with
      | none => simp [St.acts, hp] at ha
      | some id => exact fun h0 => by simp [St.acts, h0] at ha
    · have hfresh : id ∉ pushes es := by
        have h1 := hc.1.2
        simp only [Group.St.can, Bool.and_eq_true, Bool.not_eq_true', List.any_eq_false, beq_iff_eq] at h1
        rw [← i.pushed, ← i.grp.perm.mem_iff]
        simp only [List.mem_append, List.mem_map, not_or, not_exists, not_and]
        exact ⟨h1.2, h1.1⟩
      have hne : ended id es = false := by
        cases he : ended id es with
        | false => rfl
        | true =>
          rcases i.known id he with a | a
          · rw [i.grp.fresh id (by rw [i.pushed]; exact hfresh)] at a; cases a
          · exact absurd (i.pushed ▸ i.grp.perm.mem_iff.1 (List.mem_append_left _ a)) hfresh
      have h1 : pushes (es ++ [.push a id]) = pushes es ++ [id] := by rw [pushes_append]; rfl
      have h2 : ∀ j, ended j (es ++ [.push a id]) = ended j es := fun j => by
        rw [ended_append]; simp [ended]
      have h3 : ∀ j, Group.outcome j (h ++ [.push id]) = Group.outcome j h := fun j => by
        rw [Group.outcome_append]; simp [Group.outcome]
      refine Or.inr ⟨by rw [use_ub _ _ hp]; exact hu, ⟨_, i.use hp hc.1.2 rfl ?_ hl ?_ ?_ ?_ _ ?_⟩, fun k hn => ?_⟩
      · rw [h1, Group.pushes_append, i.pushed]; rfl
      · intro j hj ha
        obtain rfl : id = j := by simpa using hj
        simp [late, ha]
      · intro j hj; rw [h3] at hj; rw [h2]; exact i.done j hj
      · intro j hj; rw [h2] at hj; rw [h3]; exact i.known j hj
      · intro j
        rw [h1, h2]
        simp only [List.mem_cons, List.mem_append, List.mem_singleton, List.not_mem_nil, or_false, i.runs j]
        constructor
        · rintro (rfl | hj)
          · exact ⟨Or.inr rfl, hne⟩
          · exact ⟨Or.inl hj.1, hj.2⟩
        · rintro ⟨hj | rfl, hx⟩
          · exact Or.inr ⟨hj, hx⟩
          · exact Or.inl rfl
      · unfold Kept
        dsimp only
        rw [use_g _ _ hp]
        exact i.kept k hc.1.2 (fun ⟨_, _, h⟩ => by cases h) hl
  | complete id o =>
    have hrun : id ∈ pushes es ∧ ended id es = false := (i.runs id).1 (by simpa [St.can] using hc)
    have h1 : pushes (es ++ [.complete id o]) = pushes es := by rw [pushes_append]; simp [pushes]
    have h2 : ∀ j, ended j (es ++ [.complete id o]) = (ended j es || id == j) := fun j => by
      rw [ended_append]; simp [ended]
    have h4 : late s [.complete id o] = [] := rfl
    have hr : ∀ j, j ∈ s.running.filter (· ≠ id) ↔
        j ∈ pushes (es ++ [.complete id o]) ∧ ended j (es ++ [.complete id o]) = false := by
      intro j
      rw [h1, h2]
      simp only [List.mem_filter, i.runs j, decide_eq_true_eq, Bool.or_eq_false_iff, beq_eq_false_iff_ne, ne_eq]
      constructor
      · exact fun a => ⟨a.1.1, a.1.2, fun b => a.2 b.symm⟩
      · exact fun a => ⟨⟨a.1, a.2.1⟩, fun b => a.2.2 b.symm⟩
    right
    by_cases hg : s.g.can (.complete id o) = true
    · have hp : s.phase ≠ .over := by
        intro hp
        simp [Group.St.can, i.over hp] at hg
      have he : s.act (.complete id o) = { s.use (.complete id o) with running := s.running.filter (· ≠ id) } := by
        simp only [St.act]
        rw [if_pos hg]
        unfold St.use St.settle
        rw [if_neg hp, if_neg hp]
        by_cases hw : s.phase = .inExit ∧ (s.g.step (.complete id o)).wait = none
        · rw [if_pos hw, if_pos hw]
        · rw [if_neg hw, if_neg hw]
      rw [he]
      have h3 : ∀ j, (Group.outcome j (h ++ [.complete id o])).isSome =
          ((Group.outcome j h).isSome || id == j) := by
        intro j
        rw [Group.outcome_append]
        simp only [Group.outcome]
        by_cases hj : id = j
        · simp [hj]
        · simp [hj]
      refine ⟨by dsimp only; rw [use_ub _ _ hp, hu],
        ⟨_, i.use hp hg rfl ?_ hl (fun _ hx => by cases hx) ?_ ?_ _ hr⟩, fun k hn => ?_⟩
      · rw [h1, Group.pushes_append, i.pushed]; simp [Group.pushes]
      · intro j hj
        rw [h3] at hj
        rw [h2]
        rcases Bool.or_eq_true _ _ ▸ hj with a | a
        · simp [i.done j a]
        · simp [a]
      · intro j hj
        rw [h2] at hj
        rw [h3]
        rcases Bool.or_eq_true _ _ ▸ hj with a | a
        · rcases i.known j a with b | b
          · simp [b]
          · exact Or.inr b
        · simp [a]
      · unfold Kept
        dsimp only
        rw [use_g _ _ hp]
        exact i.kept k hg (fun ⟨_, _, h⟩ => by cases h) hl
    · have he : s.act (.complete id o) = { s with running := s.running.filter (· ≠ id) } := by
        simp only [St.act]
        rw [if_neg hg]
      rw [he]
      have hfn : funcEnd (es ++ [.complete id o]) = funcEnd es := by rw [funcEnd_append]; simp [funcEnd]
      refine ⟨hu, ⟨h, i.grp, by rw [h1, i.pushed], hr, ?_, ?_, by rw [hfn]; exact i.fn,
        fun x hx => i.exc x (hfn ▸ hx), i.ex, fun w ids hw j hj => (i.all w ids hw j hj).imp_right (hl j),
        i.over⟩, fun k _ m hm ho => hl _ (k m hm ho)⟩
      · intro j hj; rw [h2, i.done j hj]; rfl
      · intro j hj
        rw [h2] at hj
        rcases Bool.or_eq_true _ _ ▸ hj with a | a
        · exact i.known j a
        · obtain rfl : id = j := by simpa using a
          have := i.grp.perm.mem_iff.2 (i.pushed ▸ hrun.1)
          rcases List.mem_append.1 this with b | b
          · exact Or.inr b
          · obtain ⟨m, hm, rfl⟩ := List.mem_map.1 b
            rw [← i.grp.out m hm]
            cases ho : m.out with
            | some o => exact Or.inl rfl
            | none =>
              refine absurd ?_ hg
              simp only [Group.St.can, List.any_eq_true, Bool.and_eq_true, beq_iff_eq]
              exact ⟨m, hm, rfl, ho⟩
  | funcEnds x =>
    right
    simp only [St.can, Bool.and_eq_true, beq_iff_eq] at hc
    have hg : s.g.can (.exit 0 x.isSome) = true := by simp [Group.St.can, hc.2]
    have hs := Group.step_eq i.grp.ub hg
    have hq : Group.quiet (.exit 0 x.isSome) = true := rfl
    have h1 : pushes (es ++ [.funcEnds x]) = pushes es := by rw [pushes_append]; simp [pushes]
    have h2 : ∀ j, ended j (es ++ [.funcEnds x]) = ended j es := fun j => by rw [ended_append]; simp [ended]
    have hfn : funcEnd (es ++ [.funcEnds x]) = some x := by
      rw [funcEnd_append, i.fn.1 hc.1]; rfl
    have base : ∀ p : Phase, p ≠ .inFunc →
        (p = .inExit → (s.g.step (.exit 0 x.isSome)).wait ≠ none) →
        (p = .over → (s.g.step (.exit 0 x.isSome)).wait = none) →
        Inv (h ++ [.exit 0 x.isSome]) (es ++ [.funcEnds x]) (l ++ late s [.funcEnds x])
          { s with phase := p, e := x, g := s.g.step (.exit 0 x.isSome) } := by
      intro p hp hx ho
      refine ⟨i.grp.step hg, by rw [h1, Group.pushes_quiet hq, i.pushed], fun j => by rw [h1, h2]; exact i.runs j,
        fun j hj => ?_, fun j hj => ?_, by rw [hfn]; simp [hp], fun y hy => ?_, fun hpx => ?_, fun w ids hw => ?_,
        fun hpo => ?_⟩
      · rw [Group.outcome_quiet hq] at hj; rw [h2]; exact i.done j hj
      · rw [Group.outcome_quiet hq]
        rw [h2] at hj
        rcases i.known j hj with a | a
        · exact Or.inl a
        · obtain ⟨m, hm, rfl⟩ := List.mem_map.1 a
          exact Or.inr (List.mem_map.2 ⟨m, by dsimp only; rw [hs]; exact gone_mono _ _ m hm, rfl⟩)
      · rw [hfn] at hy; exact Option.some.inj hy
      · have hnn := hx hpx
        rw [awaited_iff]
        dsimp only
        rw [hs] at hnn ⊢
        rcases exit_step s.g 0 x.isSome hc.2 with a | a
        · exact absurd a.1 hnn
        · exact ⟨_, _, a.1⟩
      · dsimp only at hw ⊢
        rw [hs] at hw ⊢
        exact fun j hj => Or.inl (all_new hw (fun w ids hy => by rw [hc.2] at hy; cases hy) j hj)
      · have hnn := ho hpo
        dsimp only
        rw [hs] at hnn ⊢
        rcases exit_step s.g 0 x.isSome hc.2 with a | a
        · exact a.2
        · rw [a.1] at hnn; cases hnn
    have kept : ∀ p : Phase, Kept l s →
        Kept (l ++ late s [.funcEnds x]) { s with phase := p, e := x, g := s.g.step (.exit 0 x.isSome) } :=
      fun p k => i.kept k hg (fun ⟨_, _, h⟩ => by cases h) hl
    change (St.settle { s with phase := .inExit, e := x, g := s.g.step (.exit 0 x.isSome) }).ub = false ∧
      (∃ h', Inv h' _ _ (St.settle { s with phase := .inExit, e := x, g := s.g.step (.exit 0 x.isSome) })) ∧
      (_ → _ → Kept _ (St.settle { s with phase := .inExit, e := x, g := s.g.step (.exit 0 x.isSome) }))
    unfold St.settle
    split
    case isTrue hw =>
      exact ⟨hu, ⟨_, base .over (by decide) (fun h => by cases h) (fun _ => hw.2)⟩, fun k _ => kept .over k⟩
    case isFalse hw =>
      exact ⟨hu, ⟨_, base .inExit (by decide) (fun _ h => hw ⟨rfl, h⟩) (fun h => by cases h)⟩,
        fun k _ => kept .inExit k⟩

theorem ub_stays {s : St} (hu : s.ub = true) (es : List Ev) : (s.steps es).ub = true := by
  induction es with
  | nil => exact hu
  | cons e es ih =>
    have : s.step e = s := by simp [St.step, hu]
    change ((s.step e).steps es).ub = true
    rw [this]; exact ih

/-- Every run, up to undefined behaviour. -/
theorem Inv.run {es : List Ev} {s0 : St} {h0 : List Group.Ev} {es0 : List Ev} {l0 : List Nat}
    (i : Inv h0 es0 l0 s0) (hu : s0.ub = false) (hl : Legal s0 es) :
    (∃ a e b, es = a ++ e :: b ∧ Bad (s0.steps a) ∧ (s0.steps es).ub = true ∧
      (∃ h, Inv h (es0 ++ a) (l0 ++ late s0 a) (s0.steps a)) ∧
      (Kept l0 s0 → NoOverlap s0 es → Kept (l0 ++ late s0 a) (s0.steps a))) ∨
    (s0.steps es).ub = false ∧ (∃ h, Inv h (es0 ++ es) (l0 ++ late s0 es) (s0.steps es)) ∧
      (Kept l0 s0 → NoOverlap s0 es → Kept (l0 ++ late s0 es) (s0.steps es)) := by
  induction es generalizing s0 h0 es0 l0 with
  | nil => exact Or.inr ⟨hu, ⟨h0, by simpa [late, St.steps] using i⟩, fun k _ => by simpa [late, St.steps] using k⟩
  | cons e es ih =>
    have hlate : ∀ a, late s0 (e :: a) = late s0 [e] ++ late (s0.step e) a := fun a =>
      late_append s0 [e] a
    rcases i.step hu hl.1 with hb | ⟨hu', ⟨h', i'⟩, k'⟩
    · exact Or.inl ⟨[], e, es, rfl, hb.1, ub_stays hb.2 es, ⟨h0, by simpa [late, St.steps] using i⟩, fun k _ => by simpa [late, St.steps] using k⟩
    · rcases ih i' hu' hl.2 with ⟨a, e', b, rfl, hbad, hub, ⟨h, hi⟩, hk⟩ | ⟨hub, ⟨h, hi⟩, hk⟩
      · refine Or.inl ⟨e :: a, e', b, rfl, hbad, hub, ⟨h, ?_⟩, fun k hn => ?_⟩
        · rw [hlate]; simpa [St.steps] using hi
        · have := hk (k' k hn.1) hn.2
          rw [hlate]; simpa [St.steps] using this
      · refine Or.inr ⟨hub, ⟨h, ?_⟩, fun k hn => ?_⟩
        · rw [hlate]; simpa [St.steps] using hi
        · have := hk (k' k hn.1) hn.2
          rw [hlate]; simpa [St.steps] using this

theorem legal_snoc {s : St} {es : List Ev} {e : Ev} (hl : Legal s (es ++ [e])) :
    Legal s es ∧ (s.steps es).can e = true := by
  induction es generalizing s with
  | nil => exact ⟨trivial, hl.1⟩
  | cons e' es ih =>
    have := ih hl.2
    exact ⟨⟨hl.1, this.1⟩, this.2⟩

theorem use_types (s : St) (ge : Group.Ev) : (s.use ge).g.normal = s.g.normal ∧ (s.use ge).g.except = s.g.except := by
  unfold St.use St.settle
  split
  · exact ⟨rfl, rfl⟩
  · split <;> exact Group.step_types _ _

theorem step_types (s : St) (e : Ev) : (s.step e).g.normal = s.g.normal ∧ (s.step e).g.except = s.g.except := by
  unfold St.step
  split
  · exact ⟨rfl, rfl⟩
  cases e with
  | complete id o =>
    simp only [St.act]
    split
    · exact use_types _ _
    · exact ⟨rfl, rfl⟩
  | funcEnds x =>
    simp only [St.act, St.settle]
    split <;> exact Group.step_types _ _
  | _ => exact use_types _ _

theorem run_types (cn ce : Nat) (es : List Ev) :
    (St.run cn ce es).g.normal = cn ∧ (St.run cn ce es).g.except = ce := by
  have : ∀ (es : List Ev) (s : St), (s.steps es).g.normal = s.g.normal ∧ (s.steps es).g.except = s.g.except := by
    intro es
    induction es with
    | nil => intro s; exact ⟨rfl, rfl⟩
    | cons e es ih =>
      intro s
      have a := ih (s.step e)
      have b := step_types s e
      exact ⟨a.1.trans b.1, a.2.trans b.2⟩
  exact this es _

end Cobalt.Nurse
