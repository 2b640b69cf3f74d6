import Verif.Nurse.Spec
import Verif.Group.Inv
import Verif.Group.Lemmas

/-!
# Facts about every history of `with` applied to a `wait_group`
-/
namespace Cobalt.Nurse

open Group (Mem)

/-! ### The group -/

theorem wonBy_gone {s : Group.St} {w i : Nat} {m m' : Mem} (hm : s.members[i]? = some m)
    (ho : m.out.isSome = true) (h : m' ∈ (Group.St.wonBy s w i).gone) :
    m' ∈ s.gone ∨ m'.out.isSome = true := by
  rcases Group.wonBy_eq s w i m hm with ⟨x, hx, hw⟩ | ⟨hx, hw⟩ <;> rw [hw] at h
  · exact Or.inl h
  · rcases List.mem_cons.1 h with rfl | h
    · exact Or.inr ho
    · exact Or.inl h

theorem waitAll_gone {s : Group.St} {w : Nat} {m : Mem} (h : m ∈ (Group.St.waitAll s w).gone) :
    m ∈ s.gone ∨ m.out.isSome = true := by
  unfold Group.St.waitAll at h
  split at h
  · exact Or.inl h
  · split at h
    case isTrue ha =>
      rcases List.mem_append.1 h with h | h
      · exact Or.inr (List.all_eq_true.1 ha m (List.mem_reverse.1 h))
      · exact Or.inl h
    · exact Or.inl h

/-- Who leaves the group has ended or was not awaited by the wait that empties it. -/
theorem gone_new {h : List Group.Ev} {s : Group.St} {e : Group.Ev} (i : Group.Inv h s) (hc : s.can e = true)
    (hn : (∃ w order, e = .waitOne w order) → s.wait = none) {m : Mem} (hm : m ∈ (s.act e).gone) :
    m ∈ s.gone ∨ m.out.isSome = true ∨ ∃ w ids, s.wait = some (.all w ids) ∧ m.id ∉ ids ∧ m.id ∈ s.ids := by
  cases e with
  | push id => exact Or.inl hm
  | cancel ct => exact Or.inl hm
  | reap =>
    rcases List.mem_append.1 hm with hm | hm
    · have := List.mem_filter.1 (List.mem_reverse.1 hm)
      have h2 := this.2
      simp only [Bool.and_eq_true] at h2
      exact Or.inr (Or.inl h2.1)
    · exact Or.inl hm
  | waitAll w => rcases waitAll_gone hm with a | a <;> simp [a]
  | exit w b =>
    rcases waitAll_gone hm with a | a
    · refine Or.inl ?_
      generalize (if b = true then s.except else s.normal) = ct at a
      revert a; split <;> intro a <;> exact a
    · simp [a]
  | waitOne w order =>
    have hw := hn ⟨w, order, rfl⟩
    change m ∈ (Group.St.waitOne s w order).gone at hm
    unfold Group.St.waitOne at hm
    split at hm
    · exact Or.inl hm
    · simp only [hw] at hm
      split at hm
      · exact Or.inl hm
      · rename_i j hj
        have hd := (List.find?_some hj)
        obtain ⟨m0, hm0, ho⟩ := (Group.doneAt_iff s j).1 hd
        rcases wonBy_gone hm0 ho hm with a | a <;> simp [a]
  | complete id o =>
    change m ∈ (Group.St.complete s id o).gone at hm
    unfold Group.St.complete at hm
    split at hm
    · exact Or.inl hm
    · rename_i w n hw
      split at hm
      case isTrue hlt =>
        have hlen : s.members.findIdx (fun m => m.id = id) < s.members.length :=
          Nat.lt_of_lt_of_le hlt (i.one w n hw).2.1
        have hid := List.findIdx_getElem (p := fun m : Mem => decide (m.id = id)) (w := hlen)
        have hg : ({ s with members := s.ended id o } : Group.St).members[s.members.findIdx fun m => m.id = id]? =
            some { s.members[s.members.findIdx fun m => m.id = id] with out := some o, taken := s.inAll id } := by
          simp only [Group.St.ended, List.getElem?_map, List.getElem?_eq_getElem hlen, Option.map_some]
          rw [if_pos (by simpa using hid)]
        rcases wonBy_gone hg rfl hm with a | a
        · exact Or.inl a
        · simp [a]
      · exact Or.inl hm
    · rename_i w ids hw
      split at hm
      case isTrue ha =>
        rcases List.mem_append.1 hm with hm | hm
        · have := List.all_eq_true.1 ha m (List.mem_reverse.1 hm)
          simp only [Bool.or_eq_true, Bool.not_eq_true'] at this
          rcases this with a | a
          · exact Or.inr (Or.inr ⟨w, ids, hw, by simpa using a, by
              have := List.mem_map_of_mem (f := Mem.id) (List.mem_reverse.1 hm)
              dsimp only at this
              rwa [Group.ended_ids] at this⟩)
          · exact Or.inr (Or.inl a)
        · exact Or.inl hm
      · exact Or.inl hm

/-- While everything in the group is awaited, the wait goes on or the group is emptied. -/
theorem all_step {s : Group.St} {e : Group.Ev} {w : Nat} {ids : List Nat} (hw : s.wait = some (.all w ids))
    (hc : s.can e = true) :
    (s.act e).wait = s.wait ∧ (∀ id ∈ (s.act e).ids, id ∈ s.ids ∨ e = .push id) ∨
    (s.act e).wait = none ∧ (s.act e).members = [] := by
  cases e with
  | push id =>
    refine Or.inl ⟨rfl, fun j hj => ?_⟩
    simp only [Group.St.act, Group.St.ids, List.map_append, List.map_cons, List.map_nil, List.mem_append,
      List.mem_singleton] at hj
    rcases hj with a | a
    · exact Or.inl a
    · exact Or.inr (by rw [a])
  | cancel ct =>
    refine Or.inl ⟨rfl, fun j hj => Or.inl ?_⟩
    obtain ⟨m, hm, rfl⟩ := List.mem_map.1 hj
    obtain ⟨m', hm', rfl⟩ := List.mem_map.1 hm
    exact List.mem_map.2 ⟨m', hm', by split <;> rfl⟩
  | reap =>
    refine Or.inl ⟨rfl, fun j hj => Or.inl ?_⟩
    obtain ⟨m, hm, rfl⟩ := List.mem_map.1 hj
    exact List.mem_map.2 ⟨m, (List.mem_filter.1 hm).1, rfl⟩
  | waitAll w' => simp [Group.St.can, hw] at hc
  | exit w' b => simp [Group.St.can, hw] at hc
  | waitOne w' order => simp [Group.St.can, hw] at hc
  | complete id o =>
    change (Group.St.complete s id o).wait = s.wait ∧ _ ∨ (Group.St.complete s id o).wait = none ∧ _
    simp only [Group.St.act]
    unfold Group.St.complete
    simp only [hw]
    split
    · exact Or.inr ⟨rfl, rfl⟩
    · refine Or.inl ⟨rfl, fun j hj => Or.inl ?_⟩
      rw [Group.St.ids] at hj
      dsimp only at hj
      rw [Group.ended_ids] at hj
      exact hj

/-- What the exit makes of the group. -/
theorem exit_step (s : Group.St) (w : Nat) (b : Bool) (hw : s.wait = none) :
    (s.act (.exit w b)).wait = none ∧ (s.act (.exit w b)).members = [] ∨
    (s.act (.exit w b)).wait = some (.all w s.ids) ∧ (s.act (.exit w b)).ids = s.ids := by
  have key : ∀ t : Group.St, t.wait = none → t.ids = s.ids →
      (Group.St.waitAll t w).wait = none ∧ (Group.St.waitAll t w).members = [] ∨
      (Group.St.waitAll t w).wait = some (.all w s.ids) ∧ (Group.St.waitAll t w).ids = s.ids := by
    intro t ht hi
    unfold Group.St.waitAll
    split
    · rename_i h0; exact Or.inl ⟨ht, h0⟩
    · split
      · exact Or.inl ⟨rfl, rfl⟩
      · refine Or.inr ⟨by rw [← hi]; rfl, ?_⟩
        rw [← hi]
        simp [Group.St.ids, Function.comp_def]
  change (Group.St.waitAll (if (if b = true then s.except else s.normal) ≠ 0 then
      s.cancelAll (if b = true then s.except else s.normal) else s) w).wait = none ∧ _ ∨
    (Group.St.waitAll (if (if b = true then s.except else s.normal) ≠ 0 then
      s.cancelAll (if b = true then s.except else s.normal) else s) w).wait = _ ∧ _
  simp only [Group.St.act, Group.St.exit]
  generalize (if b = true then s.except else s.normal) = ct
  refine key _ ?_ ?_
  · split
    · exact hw
    · exact hw
  · split
    · simp only [Group.St.ids, Group.St.cancelAll, List.map_map]
      apply List.map_congr_left
      intro m _
      simp only [Function.comp]
      split <;> rfl
    · rfl

end Cobalt.Nurse
