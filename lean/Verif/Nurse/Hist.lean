import Verif.Nurse.Inv

/-!
# The group and the history of its coroutines
-/
namespace Cobalt.Nurse

open Group (Mem)

theorem pushes_append (a b : List Ev) : pushes (a ++ b) = pushes a ++ pushes b := by
  induction a with
  | nil => rfl
  | cons e a ih => cases e <;> simp [pushes, ih]

theorem ended_append (id : Nat) (a b : List Ev) : ended id (a ++ b) = (ended id a || ended id b) := by
  induction a with
  | nil => rfl
  | cons e a ih => cases e <;> simp [ended, ih, Bool.or_assoc]

theorem funcEnd_append (a b : List Ev) : funcEnd (a ++ b) = (funcEnd a).or (funcEnd b) := by
  induction a with
  | nil => rfl
  | cons e a ih => cases e <;> simp [funcEnd, ih]

theorem steps_append (s : St) (a b : List Ev) : s.steps (a ++ b) = (s.steps a).steps b := by
  simp [St.steps]

theorem late_append (s : St) (a b : List Ev) : late s (a ++ b) = late s a ++ late (s.steps a) b := by
  induction a generalizing s with
  | nil => rfl
  | cons e a ih =>
    cases e
    case push =>
      simp only [List.cons_append, late, ih]
      split <;> rfl
    all_goals simp only [List.cons_append, late, ih]; rfl

theorem late_sub (s : St) (a : List Ev) : ∀ id ∈ late s a, id ∈ pushes a := by
  induction a generalizing s with
  | nil => simp [late]
  | cons e a ih =>
    cases e
    case push =>
      intro id h
      simp only [late] at h
      split at h
      · rcases List.mem_cons.1 h with rfl | h
        · exact List.mem_cons_self ..
        · exact List.mem_cons_of_mem _ (ih _ id h)
      · exact List.mem_cons_of_mem _ (ih _ id h)
    all_goals exact ih _

/-- What holds in every run that has not reached undefined behaviour. -/
structure Inv (h : List Group.Ev) (es : List Ev) (l : List Nat) (s : St) : Prop where
  grp : Group.Inv h s.g
  pushed : Group.pushes h = pushes es
  runs : ∀ id, id ∈ s.running ↔ id ∈ pushes es ∧ ended id es = false
  done : ∀ id, (Group.outcome id h).isSome = true → ended id es = true
  known : ∀ id, ended id es = true → (Group.outcome id h).isSome = true ∨ id ∈ s.g.gone.map Mem.id
  fn : s.phase = .inFunc ↔ funcEnd es = none
  exc : ∀ x, funcEnd es = some x → s.e = x
  ex : s.phase = .inExit → s.awaited = true
  all : ∀ w ids, s.g.wait = some (.all w ids) → ∀ id ∈ s.g.ids, id ∈ ids ∨ id ∈ l
  over : s.phase = .over → s.g.members = []

/-- Besides, if the waits do not overlap. -/
def Kept (l : List Nat) (s : St) : Prop :=
  ∀ m ∈ s.g.gone, m.out = none → m.id ∈ l

theorem Inv.init (cn ce : Nat) : Inv [] [] [] { g := { normal := cn, except := ce } } where
  grp := Group.Inv.init cn ce
  pushed := rfl
  runs := by simp [pushes]
  done := by simp [Group.outcome]
  known := by simp [ended]
  fn := by simp [funcEnd]
  exc := by simp [funcEnd]
  ex := by simp
  all := by simp
  over := by simp

theorem wonBy_mono (s : Group.St) (w i : Nat) : ∀ m ∈ s.gone, m ∈ (Group.St.wonBy s w i).gone := by
  intro m hm
  unfold Group.St.wonBy
  split
  · exact hm
  · split
    · exact hm
    · exact List.mem_cons_of_mem _ hm

theorem waitAll_mono (s : Group.St) (w : Nat) : ∀ m ∈ s.gone, m ∈ (Group.St.waitAll s w).gone := by
  intro m hm
  unfold Group.St.waitAll
  split
  · exact hm
  · split
    · exact List.mem_append_right _ hm
    · exact hm

theorem gone_mono (s : Group.St) (e : Group.Ev) : ∀ m ∈ s.gone, m ∈ (s.act e).gone := by
  intro m hm
  cases e with
  | push id => exact hm
  | cancel ct => exact hm
  | reap => exact List.mem_append_right _ hm
  | waitAll w => exact waitAll_mono s w m hm
  | exit w b =>
    refine waitAll_mono _ w m ?_
    generalize (if b = true then s.except else s.normal) = ct
    split
    · exact hm
    · exact hm
  | waitOne w order =>
    change m ∈ (Group.St.waitOne s w order).gone
    unfold Group.St.waitOne
    split
    · exact hm
    · split
      · split
        · exact hm
        · split
          · exact wonBy_mono _ _ _ m hm
          · exact wonBy_mono _ _ _ m hm
      · split
        · exact hm
        · exact wonBy_mono _ _ _ m hm
  | complete id o =>
    change m ∈ (Group.St.complete s id o).gone
    unfold Group.St.complete
    split
    · exact hm
    · split
      · exact wonBy_mono _ _ _ m hm
      · exact hm
    · split
      · exact List.mem_append_right _ hm
      · exact hm

theorem awaited_iff (s : St) : s.awaited = true ↔ ∃ w ids, s.g.wait = some (.all w ids) := by
  unfold St.awaited
  split
  · rename_i w ids h; simp [h]
  · rename_i h; simp only [Bool.false_eq_true, false_iff]; rintro ⟨w, ids, hw⟩; exact h w ids hw

theorem wonBy_wait (s : Group.St) (w i : Nat) :
    (Group.St.wonBy s w i).wait = none ∨ (Group.St.wonBy s w i).wait = s.wait := by
  unfold Group.St.wonBy
  split
  · exact Or.inr rfl
  · split
    · exact Or.inl rfl
    · exact Or.inl rfl

theorem waitAll_new {s : Group.St} {w' w : Nat} {ids : List Nat}
    (hw : (Group.St.waitAll s w').wait = some (.all w ids)) (hn : ∀ w ids, s.wait ≠ some (.all w ids)) :
    ∀ id ∈ (Group.St.waitAll s w').ids, id ∈ ids := by
  unfold Group.St.waitAll at hw ⊢
  split at hw
  · exact absurd hw (hn _ _)
  · rename_i h0
    split at hw
    · cases hw
    · rename_i h1
      obtain ⟨_, rfl⟩ : w' = w ∧ _ = ids := by simpa using hw
      intro id hid
      simpa [Group.St.ids, h0, h1, Function.comp_def] using hid

/-- A wait for all of the group begins with all that is in it. -/
theorem all_new {s : Group.St} {e : Group.Ev} {w : Nat} {ids : List Nat}
    (hw : (s.act e).wait = some (.all w ids)) (hn : ∀ w ids, s.wait ≠ some (.all w ids)) :
    ∀ id ∈ (s.act e).ids, id ∈ ids := by
  have key : ∀ t : Group.St, t.wait = none ∨ t.wait = s.wait → t.wait ≠ some (.all w ids) := by
    intro t ht
    rcases ht with ht | ht <;> rw [ht]
    · exact fun h => by cases h
    · exact hn _ _
  cases e with
  | push id => exact absurd hw (hn _ _)
  | cancel ct => exact absurd hw (hn _ _)
  | reap => exact absurd hw (hn _ _)
  | waitAll w' => exact waitAll_new hw hn
  | exit w' b =>
    refine waitAll_new hw ?_
    generalize (if b = true then s.except else s.normal) = ct
    split
    · exact hn
    · exact hn
  | waitOne w' order =>
    exfalso
    revert hw
    change (Group.St.waitOne s w' order).wait = _ → False
    unfold Group.St.waitOne
    split
    · exact hn _ _
    · split
      · split
        · exact hn _ _
        · split
          · exact hn _ _
          · exact key _ (wonBy_wait _ _ _)
      · split
        · exact fun h => by cases h
        · exact key _ (wonBy_wait _ _ _)
  | complete id o =>
    exfalso
    revert hw
    change (Group.St.complete s id o).wait = _ → False
    unfold Group.St.complete
    split
    · exact hn _ _
    · split
      · exact key _ (wonBy_wait _ _ _)
      · exact hn _ _
    · rename_i h; exact absurd h (hn _ _)

/-- The group is used while it exists. -/
theorem Inv.use {h : List Group.Ev} {es : List Ev} {l l' : List Nat} {s : St} {ge : Group.Ev} {e : Ev}
    (i : Inv h es l s)
    (hp : s.phase ≠ .over) (hc : s.g.can ge = true) (hfe : funcEnd [e] = none)
    (hpush : Group.pushes (h ++ [ge]) = pushes (es ++ [e]))
    (hl : ∀ id ∈ l, id ∈ l') (hlate : ∀ id, ge = .push id → s.awaited = true → id ∈ l')
    (hdone : ∀ id, (Group.outcome id (h ++ [ge])).isSome = true → ended id (es ++ [e]) = true)
    (hknown : ∀ id, ended id (es ++ [e]) = true →
      (Group.outcome id (h ++ [ge])).isSome = true ∨ id ∈ s.g.gone.map Mem.id)
    (r : List Nat) (hr : ∀ id, id ∈ r ↔ id ∈ pushes (es ++ [e]) ∧ ended id (es ++ [e]) = false) :
    Inv (h ++ [ge]) (es ++ [e]) l' { s.use ge with running := r } := by
  have hg := i.grp.step hc
  have hs := Group.step_eq i.grp.ub hc
  have hfn : funcEnd (es ++ [e]) = funcEnd es := by rw [funcEnd_append, hfe]; simp
  have hk : ∀ id, ended id (es ++ [e]) = true →
      (Group.outcome id (h ++ [ge])).isSome = true ∨ id ∈ (s.g.step ge).gone.map Mem.id := by
    intro id a
    rcases hknown id a with b | b
    · exact Or.inl b
    · obtain ⟨m, hm, rfl⟩ := List.mem_map.1 b
      exact Or.inr (List.mem_map.2 ⟨m, by rw [hs]; exact gone_mono _ _ m hm, rfl⟩)
  have hall : ∀ w ids, (s.g.step ge).wait = some (.all w ids) → ∀ id ∈ (s.g.step ge).ids, id ∈ ids ∨ id ∈ l' := by
    intro w ids hw id hid
    rw [hs] at hw hid
    by_cases ha : s.awaited = true
    · obtain ⟨w', ids', hwa⟩ := (awaited_iff s).1 ha
      rcases all_step hwa hc with ⟨a, b⟩ | a
      · rw [a, hwa] at hw
        obtain ⟨rfl, rfl⟩ : w' = w ∧ ids' = ids := by simpa using hw
        rcases b id hid with c | c
        · rcases i.all _ _ hwa id c with d | d
          · exact Or.inl d
          · exact Or.inr (hl id d)
        · exact Or.inr (hlate id c ha)
      · rw [a.1] at hw; cases hw
    · exact Or.inl (all_new hw (fun w ids hx => ha ((awaited_iff s).2 ⟨w, ids, hx⟩)) id hid)
  unfold St.use
  rw [if_neg hp]
  unfold St.settle
  split
  case isTrue hw =>
    refine ⟨hg, hpush, hr, hdone, hk, ?_, fun x hx => i.exc x (hfn ▸ hx), by simp, hall, fun _ => ?_⟩
    · simp only [hfn]
      exact ⟨fun a => by simp at a, fun a => absurd (i.fn.2 a) (by rw [hw.1]; decide)⟩
    · obtain ⟨w, ids, hwa⟩ := (awaited_iff s).1 (i.ex hw.1)
      rcases all_step hwa hc with ⟨a, _⟩ | a
      · have := hw.2; dsimp only at this; rw [hs, a, hwa] at this; cases this
      · dsimp only; rw [hs]; exact a.2
  case isFalse hw =>
    refine ⟨hg, hpush, hr, hdone, hk, by simp only [hfn]; exact i.fn, fun x hx => i.exc x (hfn ▸ hx), ?_, hall,
      fun a => absurd a hp⟩
    intro hx
    obtain ⟨w, ids, hwa⟩ := (awaited_iff s).1 (i.ex hx)
    refine (awaited_iff _).2 ⟨w, ids, ?_⟩
    rcases all_step hwa hc with ⟨a, ha⟩ | a
    · dsimp only; rw [hs, a, hwa]
    · exact absurd ⟨hx, by dsimp only; rw [hs]; exact a.1⟩ hw

end Cobalt.Nurse
