import Verif.Group.Inv
import Mathlib.Data.List.Nodup

/-!
# Helper lemmas for C22 and C23
-/
namespace Cobalt.Group

theorem map_eraseIdx {α β : Type} (f : α → β) (l : List α) (i : Nat) :
    (l.eraseIdx i).map f = (l.map f).eraseIdx i := by
  induction l generalizing i with
  | nil => rfl
  | cons a l ih => cases i <;> simp [ih]

theorem ids_eraseIdx {s : St} {i : Nat} {m : Mem} (hn : s.ids.Nodup) (hm : s.members[i]? = some m) :
    (s.members.eraseIdx i).map Mem.id = s.ids.erase m.id := by
  obtain ⟨hi, he⟩ := List.getElem?_eq_some_iff.1 hm
  have hl : i < s.ids.length := by simpa [St.ids] using hi
  have := hn.erase_getElem i hl
  rw [map_eraseIdx]
  simp only [St.ids, List.getElem_map, he] at this
  exact this.symm

theorem ids_set {s : St} {i : Nat} {m m' : Mem} (hm : s.members[i]? = some m) (hid : m'.id = m.id) :
    (s.members.set i m').map Mem.id = s.ids := by
  obtain ⟨hi, he⟩ := List.getElem?_eq_some_iff.1 hm
  rw [List.map_set, St.ids]
  apply List.ext_getElem?
  intro k
  by_cases hk : i = k
  · subst hk; simp [hi, he, hid]
  · simp [hk]

/-- What a race won by a member that has ended does to the group. -/
theorem wonBy_ok {h : List Ev} {s : St} {w i : Nat} {m : Mem} (c : Core h s)
    (hm : s.members[i]? = some m) (hs : m.out.isSome = true) :
    (outcome m.id h = some .ok ∧ (St.wonBy s w i).ids = s.ids.erase m.id ∧
      (St.wonBy s w i).log = (w, .ok) :: s.log) ∨
    (∃ x, outcome m.id h = some (.err x) ∧ (St.wonBy s w i).ids = s.ids ∧
      (St.wonBy s w i).log = (w, .err x) :: s.log) := by
  have hmem : m ∈ s.members := List.mem_of_getElem? hm
  have ho := c.out m hmem
  rcases wonBy_eq s w i m hm with ⟨x, hx, he⟩ | ⟨hn, he⟩
  · right
    refine ⟨x, by rw [← ho, hx], ?_, by rw [he]⟩
    rw [he]; exact ids_set hm rfl
  · left
    refine ⟨?_, ?_, by rw [he]⟩
    · rw [← ho]
      cases hoo : m.out with
      | none => simp [hoo] at hs
      | some o => cases o with
        | ok => rfl
        | err x => exact absurd hoo (hn x)
    · rw [he]; exact ids_eraseIdx c.nodupM hm

theorem mem_ids {s : St} {i : Nat} {m : Mem} (hm : s.members[i]? = some m) : m.id ∈ s.ids :=
  List.mem_map.2 ⟨m, List.mem_of_getElem? hm, rfl⟩

theorem take_new {α : Type} (a : α) (l : List α) : (a :: l).take ((a :: l).length - l.length) = [a] := by
  have : (a :: l).length - l.length = 1 := by simp
  rw [this]; rfl

theorem take_old {α : Type} (l : List α) : l.take (l.length - l.length) = [] := by simp

/-- The core of the invariant when a member has just ended. -/
theorem Core.ended {h : List Ev} {s : St} {id : Nat} {o : Out} (i : Inv h s)
    (hc : s.can (.complete id o) = true) :
    Core (h ++ [.complete id o]) { s with members := s.ended id o } := by
  -- `complete` differs from this state only in the wait, for a state without one
  have j : Inv h { s with wait := none, members := s.members.map fun m => { m with taken := false } } := by
    refine ⟨i.ub, ?_, i.nodup, ?_, i.outG, i.fresh, by simp, by simp, ?_⟩
    · simpa [List.map_map, Function.comp_def] using i.perm
    · intro m hm
      obtain ⟨m0, h0, rfl⟩ := List.mem_map.1 hm
      exact i.out m0 h0
    · intro m hm ht
      obtain ⟨m0, h0, rfl⟩ := List.mem_map.1 hm
      cases ht
  have k := (j.complete (o := o) (id := id) (by simpa [St.can, Function.comp_def] using hc)).core
  simp only [St.complete] at k
  have hids : (s.ended id o).map Mem.id = s.members.map Mem.id := ended_ids s id o
  refine ⟨i.ub, ?_, k.nodup, ?_, k.outG, k.fresh⟩
  · have := k.perm
    rw [ended_ids] at this
    simpa [hids, List.map_map, Function.comp_def] using this
  · intro m hm
    obtain ⟨m0, h0, rfl⟩ := List.mem_map.1 hm
    have := k.out { (if m0.id = id then { m0 with out := some o, taken := s.inAll id } else m0) with taken := false } (by
      simp only [St.ended, List.map_map]
      refine List.mem_map.2 ⟨m0, h0, ?_⟩
      simp only [Function.comp_apply]
      split <;> simp [St.inAll])
    exact this

theorem findIdx_complete {s : St} {id : Nat} {o : Out} (hc : s.can (.complete id o) = true) :
    ∃ m, s.members[s.members.findIdx fun m => decide (m.id = id)]? = some m ∧ m.id = id := by
  obtain ⟨m1, hm1, hid1, hout1⟩ : ∃ m ∈ s.members, m.id = id ∧ m.out = none := by
    simpa [St.can, List.any_eq_true] using hc
  have hl : s.members.findIdx (fun m => decide (m.id = id)) < s.members.length :=
    List.findIdx_lt_length_of_exists ⟨m1, hm1, by simpa using hid1⟩
  refine ⟨_, List.getElem?_eq_getElem hl, ?_⟩
  simpa using List.findIdx_getElem (w := hl)

theorem ended_at {s : St} {id : Nat} {o : Out} {i : Nat} {m : Mem} (hm : s.members[i]? = some m) (hid : m.id = id) :
    ∃ m', (s.ended id o)[i]? = some m' ∧ m'.id = id ∧ m'.out = some o := by
  simp only [St.ended, List.getElem?_map, hm, Option.map_some, hid, if_true]
  exact ⟨_, rfl, rfl, rfl⟩

theorem legal_append {s : St} {es : List Ev} {e : Ev} (hl : Legal s es) (hc : (s.steps es).can e = true) :
    Legal s (es ++ [e]) := by
  induction es generalizing s with
  | nil => exact ⟨hc, trivial⟩
  | cons a es ih => exact ⟨hl.1, ih hl.2 hc⟩

theorem complete_one {s : St} {w n : Nat} (hw : s.wait = some (.one w n)) (id : Nat) (o : Out) :
    s.complete id o =
      if s.members.findIdx (fun m => m.id = id) < n
      then St.wonBy { s with members := s.ended id o } w (s.members.findIdx fun m => m.id = id)
      else { s with members := s.ended id o } := by
  unfold St.complete
  split
  · simp_all
  · rename_i w' n' h
    rw [hw] at h; cases h; rfl
  · simp_all

theorem complete_all {s : St} {w : Nat} {ids : List Nat} (hw : s.wait = some (.all w ids)) (id : Nat) (o : Out) :
    s.complete id o =
      if (s.ended id o).all fun m => !ids.contains m.id || m.out.isSome
      then St.clear { s with members := s.ended id o } w
      else { s with members := s.ended id o } := by
  unfold St.complete
  split
  · simp_all
  · simp_all
  · rename_i w' n' h
    rw [hw] at h; cases h; rfl

theorem cons_ne {α : Type} (a : α) (l : List α) : l ≠ a :: l := by
  intro h
  have := congrArg List.length h
  simp at this

/-- The two ends and the continuation of a `wait` that is started. -/
theorem waitAll_cases {h : List Ev} {s : St} (w : Nat) (i : Inv h s) :
    ((St.waitAll s w).ids = [] ∧ (St.waitAll s w).log = (w, .ok) :: s.log ∧ ∀ id ∈ s.ids, (outcome id h).isSome) ∨
    ((St.waitAll s w).wait = some (.all w s.ids) ∧ (St.waitAll s w).log = s.log ∧
      (St.waitAll s w).members = s.members.map fun m => { m with taken := m.taken || m.out.isSome }) := by
  unfold St.waitAll
  split
  · rename_i hm
    left; simp [St.ids, hm]
  split
  · rename_i hall
    left
    refine ⟨rfl, rfl, ?_⟩
    intro id hid
    obtain ⟨m, hm, rfl⟩ := List.mem_map.1 hid
    rw [← i.out _ hm]
    exact List.all_eq_true.1 hall m hm
  · right; exact ⟨rfl, rfl, rfl⟩

theorem cancelAll_ids (s : St) (ct : Nat) : (St.cancelAll s ct).ids = s.ids := by
  simp only [St.cancelAll, St.ids, List.map_map]
  refine List.map_congr_left fun m _ => ?_
  simp only [Function.comp_apply]; split <;> rfl

theorem exit_eq (s : St) (w : Nat) (b : Bool) :
    ∃ s', St.exit s w b = St.waitAll s' w ∧ s'.ids = s.ids ∧ s'.log = s.log ∧
      (∀ h, Inv h s → Inv h s') ∧
      s' = if (if b then s.except else s.normal) ≠ 0 then St.cancelAll s (if b then s.except else s.normal) else s := by
  refine ⟨_, rfl, ?_, ?_, ?_, rfl⟩
  all_goals generalize (if b then s.except else s.normal) = ct
  · split
    · exact cancelAll_ids _ _
    · rfl
  · split <;> rfl
  · intro h i
    split
    · exact i.cancelAll _
    · exact i

theorem wonBy_types (s : St) (w i : Nat) :
    (St.wonBy s w i).normal = s.normal ∧ (St.wonBy s w i).except = s.except := by
  unfold St.wonBy
  repeat' split
  all_goals exact ⟨rfl, rfl⟩

theorem waitAll_types (s : St) (w : Nat) :
    (St.waitAll s w).normal = s.normal ∧ (St.waitAll s w).except = s.except := by
  unfold St.waitAll
  repeat' split
  all_goals exact ⟨rfl, rfl⟩

theorem step_types (s : St) (e : Ev) : (s.step e).normal = s.normal ∧ (s.step e).except = s.except := by
  unfold St.step
  split
  · exact ⟨rfl, rfl⟩
  cases e with
  | push id => exact ⟨rfl, rfl⟩
  | complete id o =>
    simp only [St.act, St.complete]
    repeat' split
    all_goals first
      | exact ⟨rfl, rfl⟩
      | exact wonBy_types _ _ _
  | waitOne w order =>
    simp only [St.act, St.waitOne]
    repeat' split
    all_goals first
      | exact ⟨rfl, rfl⟩
      | exact wonBy_types _ _ _
  | waitAll w => exact waitAll_types _ _
  | exit w b =>
    obtain ⟨s', h1, -, -, -, h2⟩ := exit_eq s w b
    simp only [St.act, h1]
    have := waitAll_types s' w
    rw [this.1, this.2, h2]
    generalize (if b then s.except else s.normal) = ct
    constructor <;> split <;> rfl
  | cancel ct => exact ⟨rfl, rfl⟩
  | reap => exact ⟨rfl, rfl⟩

theorem run_types (cn ce : Nat) (es : List Ev) :
    (St.run cn ce es).normal = cn ∧ (St.run cn ce es).except = ce := by
  have : ∀ (es : List Ev) (s : St), (s.steps es).normal = s.normal ∧ (s.steps es).except = s.except := by
    intro es
    induction es with
    | nil => intro s; exact ⟨rfl, rfl⟩
    | cons e es ih =>
      intro s
      have a := ih (s.step e)
      have b := step_types s e
      exact ⟨a.1.trans b.1, a.2.trans b.2⟩
  exact this es _

end Cobalt.Group
