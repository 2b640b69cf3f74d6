import Verif.Shared.Spec

/-!
# Lemmas about shared groups
-/
namespace Cobalt.Shared
open Group (Out Res)

/-! ## Lists -/

theorem eraseIdx_filter {l : List Mem} (h : (l.map Mem.id).Nodup) {i : Nat} {m : Mem} (hm : l[i]? = some m) :
    l.eraseIdx i = l.filter fun x => !(x.id == m.id) := by
  induction l generalizing i with
  | nil => cases hm
  | cons a l ih =>
    simp only [List.map_cons, List.nodup_cons] at h
    cases i with
    | zero =>
      cases hm
      have : l.filter (fun x => !(x.id == m.id)) = l := by
        apply List.filter_eq_self.2
        intro x hx
        have : x.id ≠ m.id := fun he => h.1 (he ▸ List.mem_map_of_mem hx)
        simpa using this
      simp [this]
    | succ i =>
      have hm' : l[i]? = some m := hm
      have : a.id ≠ m.id := fun he => h.1 (he ▸ List.mem_map_of_mem (List.mem_of_getElem? hm'))
      simp [ih h.2 hm', this]

theorem getElem_findIdx {l : List Mem} {ids : List Nat} (h : (l.map Mem.id).Nodup) (hp : ids <+: l.map Mem.id)
    {m : Mem} (hm : m ∈ l) (hid : m.id ∈ ids) : l[ids.findIdx (· = m.id)]? = some m := by
  induction l generalizing ids with
  | nil => cases hm
  | cons a l ih =>
    simp only [List.map_cons, List.nodup_cons] at h
    cases ids with
    | nil => cases hid
    | cons b ids =>
      rw [List.map_cons, List.cons_prefix_cons] at hp
      obtain ⟨rfl, hp⟩ := hp
      rw [List.findIdx_cons]
      by_cases hb : a.id = m.id
      · have : m = a := by
          rcases List.mem_cons.1 hm with h1 | h1
          · exact h1
          · exact absurd (hb ▸ List.mem_map_of_mem h1) h.1
        simp [this]
      · have h1 : m ∈ l := by
          rcases List.mem_cons.1 hm with h1 | h1
          · exact absurd (by rw [h1]) hb
          · exact h1
        have h2 : m.id ∈ ids := by
          rcases List.mem_cons.1 hid with h2 | h2
          · exact absurd h2.symm hb
          · exact h2
        simp [hb, ih h.2 hp h1 h2]

theorem prefix_filter {l : List Mem} {ids : List Nat} (hp : ids <+: l.map Mem.id) {p : Mem → Bool}
    (h : ∀ m ∈ l, m.id ∈ ids → p m = true) : ids <+: (l.filter p).map Mem.id := by
  induction l generalizing ids with
  | nil => simpa using hp
  | cons a l ih =>
    cases ids with
    | nil => exact List.nil_prefix
    | cons b ids =>
      rw [List.map_cons, List.cons_prefix_cons] at hp
      obtain ⟨rfl, hp⟩ := hp
      rw [List.filter_cons, if_pos (h a List.mem_cons_self List.mem_cons_self), List.map_cons, List.cons_prefix_cons]
      exact ⟨rfl, ih hp fun m hm hi => h m (List.mem_cons_of_mem _ hm) (List.mem_cons_of_mem _ hi)⟩

theorem map_id {l : List Mem} {f : Mem → Mem} (h : ∀ m, (f m).id = m.id) : (l.map f).map Mem.id = l.map Mem.id := by
  rw [List.map_map]
  apply List.map_congr_left
  intro m _
  exact h m

theorem nodup_filter {l : List Mem} (h : (l.map Mem.id).Nodup) (p : Mem → Bool) : ((l.filter p).map Mem.id).Nodup :=
  h.sublist (List.filter_sublist.map _)

theorem eq_of_id {l : List Mem} (h : (l.map Mem.id).Nodup) {m x : Mem} (hm : m ∈ l) (hx : x ∈ l)
    (he : m.id = x.id) : m = x := by
  induction l with
  | nil => cases hm
  | cons a l ih =>
    simp only [List.map_cons, List.nodup_cons] at h
    rcases List.mem_cons.1 hm with h1 | h1 <;> rcases List.mem_cons.1 hx with h2 | h2
    · rw [h1, h2]
    · rw [← h1, he] at h
      exact absurd (List.mem_map_of_mem h2) h.1
    · rw [← h2, ← he] at h
      exact absurd (List.mem_map_of_mem h1) h.1
    · exact ih h.2 h1 h2

/-! ## The invariant -/

/-- `L`: waits that have begun and have not ended yet, whether they wait for a member or not. -/
structure WF (es : List Ev) (L : List Nat) (s : St) : Prop where
  nodup : (s.members.map Mem.id).Nodup
  disj : ∀ m ∈ s.members, ∀ g ∈ s.gone, m.id ≠ g.id
  out : ∀ m ∈ s.members, (m.out = none ↔ ¬ Ended es m.id)
  outG : ∀ m ∈ s.gone, (m.out = none ↔ ¬ Ended es m.id)
  known : ∀ id, Ended es id ∨ Added es id → (∃ m ∈ s.members, m.id = id) ∨ ∃ m ∈ s.gone, m.id = id
  aw : ∀ m ∈ s.members, ∀ w, m.aw = some w → m.out = none ∧ w < s.next ∧ w ∉ s.killed ∧ ∀ r, (w, r) ∉ s.log
  one : ∀ w ids, s.one = some (w, ids) →
    ids <+: s.members.map Mem.id ∧ ids ≠ [] ∧ ∀ m ∈ s.members, (m.aw = some w ↔ m.id ∈ ids)
  log : ∀ w r, (w, r) ∈ s.log → w < s.next ∧ w ∉ s.killed ∧ w ∉ L
  logN : (s.log.map Prod.fst).Nodup
  killed : ∀ w ∈ s.killed, w < s.next ∧ w ∉ L
  lt : ∀ w ∈ L, w < s.next
  all : ∀ w < s.next, (∃ r, (w, r) ∈ s.log) ∨ w ∈ s.killed ∨ (∃ m ∈ s.members, m.aw = some w) ∨ w ∈ L

theorem busy_iff (s : St) (w : Nat) : s.busy w = true ↔ ∃ m ∈ s.members, m.aw = some w := by
  simp [St.busy, Mem.by]

theorem busy_false (s : St) (w : Nat) : ¬ s.busy w = true ↔ ∀ m ∈ s.members, m.aw ≠ some w := by
  rw [busy_iff]
  simp

theorem free_id (w : Nat) (m : Mem) : (m.free w).id = m.id := by
  unfold Mem.free; split <;> rfl

theorem free_out (w : Nat) (m : Mem) : (m.free w).out = m.out := by
  unfold Mem.free; split <;> rfl

theorem free_aw (w : Nat) (m : Mem) (v : Nat) : (m.free w).aw = some v ↔ m.aw = some v ∧ v ≠ w := by
  unfold Mem.free Mem.by
  split
  · rename_i h
    simp only [beq_iff_eq] at h
    simp only [reduceCtorEq, false_iff, not_and, h]
    grind
  · rename_i h
    simp only [beq_iff_eq] at h
    grind

/-- Wait `w` ends in `clear`. -/
theorem WF.clear {es : List Ev} {L : List Nat} {s : St} {w : Nat} (h : WF es (w :: L) s) (hw : w ∉ L)
    (hb : ∀ v ∈ w :: L, ∀ m ∈ s.members, m.aw ≠ some v) : WF es L (s.clear w) := by
  obtain ⟨a1, a2, a3, a4, a5, a6, a7, a8, a9, a10, a11, a12⟩ := h
  constructor
  all_goals dsimp only [St.clear]
  · simp
  · simp
  · simp
  · simp only [List.mem_append, List.mem_reverse]; grind
  · simp only [List.mem_append, List.mem_reverse]; grind
  · simp
  · simp
  · simp only [List.mem_append, List.mem_filterMap]; grind
  · simp only [List.map_cons, List.nodup_cons]
    refine ⟨?_, a9⟩
    intro hm
    obtain ⟨⟨v, r⟩, h1, h2⟩ := List.mem_map.1 hm
    cases h2
    exact (a8 v r h1).2.2 List.mem_cons_self
  · simp only [List.mem_append, List.mem_filterMap]; grind
  · grind
  · intro v hv
    rcases a12 v hv with ⟨r', h1⟩ | h1 | ⟨x, h1, h2⟩ | h1
    · exact .inl ⟨r', List.mem_cons_of_mem _ h1⟩
    · exact .inr (.inl (List.mem_append_right _ h1))
    · exact .inr (.inl (List.mem_append_left _ (List.mem_filterMap.2 ⟨x, h1, h2⟩)))
    · rcases List.mem_cons.1 h1 with rfl | h1
      · exact .inl ⟨_, List.mem_cons_self⟩
      · exact .inr (.inr (.inr h1))

/-- Member `m` is removed, and the others are not waited for by `w` any more. -/
theorem WF.drop {es : List Ev} {L : List Nat} {s : St} {w : Nat} (h : WF es (w :: L) s) (hL : w ∉ L) (r : Res) {m : Mem} (hm : m ∈ s.members) (ho : ∀ v ids, s.one = some (v, ids) → v ≠ w ∧ m.id ∉ ids)
    (hx : ∀ v, m.aw = some v → v = w) {t : Bool} :
    WF es L { s with
      members := (s.members.filter fun x => !(x.id == m.id)).map (Mem.free w)
      log := (w, r) :: s.log, gone := { m with taken := t } :: s.gone } := by
  have hnd := h.nodup
  obtain ⟨a1, a2, a3, a4, a5, a6, a7, a8, a9, a10, a11, a12⟩ := h
  constructor
  all_goals dsimp only
  · rw [map_id (free_id w)]; exact nodup_filter a1 _
  · simp only [List.mem_map, List.mem_filter, List.mem_cons]
    rintro _ ⟨x, ⟨hx, hne⟩, rfl⟩ g hg
    rw [free_id]
    rcases hg with rfl | hg
    · simpa using hne
    · exact a2 x hx g hg
  · simp only [List.mem_map, List.mem_filter]
    rintro _ ⟨x, ⟨hx, hne⟩, rfl⟩
    rw [free_id, free_out]
    exact a3 x hx
  · simp only [List.mem_cons]
    rintro g (rfl | hg)
    · exact a3 m hm
    · exact a4 g hg
  · intro id hid
    simp only [List.mem_map, List.mem_filter, List.mem_cons]
    rcases a5 id hid with ⟨x, hx, rfl⟩ | ⟨g, hg, rfl⟩
    · by_cases he : x.id = m.id
      · exact .inr ⟨_, .inl rfl, he.symm⟩
      · exact .inl ⟨_, ⟨x, ⟨hx, by simpa using he⟩, rfl⟩, free_id w x⟩
    · exact .inr ⟨g, .inr hg, rfl⟩
  · simp only [List.mem_map, List.mem_filter]
    rintro _ ⟨x, ⟨hx, hne⟩, rfl⟩ v hv
    rw [free_out]
    obtain ⟨h1, h2⟩ := (free_aw w x v).1 hv
    have := a6 x hx v h1
    grind
  · intro v ids hv
    obtain ⟨h1, h2, h3⟩ := a7 v ids hv
    obtain ⟨hvw, hmi⟩ := ho v ids hv
    refine ⟨?_, h2, ?_⟩
    · rw [map_id (free_id w)]
      apply prefix_filter h1
      intro x hx hi
      have : x.id ≠ m.id := fun he => hmi (he ▸ hi)
      simpa using this
    · simp only [List.mem_map, List.mem_filter]
      rintro _ ⟨x, ⟨hx, hne⟩, rfl⟩
      rw [free_aw, free_id, h3 x hx]
      exact ⟨fun h => h.1, fun h => ⟨h, hvw⟩⟩
  · grind
  · simp only [List.map_cons, List.nodup_cons]
    refine ⟨?_, a9⟩
    intro hm
    obtain ⟨⟨v, r⟩, h1, h2⟩ := List.mem_map.1 hm
    cases h2
    exact (a8 v r h1).2.2 List.mem_cons_self
  · grind
  · grind
  · intro v hv
    by_cases hvw : v = w
    · exact .inl ⟨r, by rw [hvw]; exact List.mem_cons_self⟩
    rcases a12 v hv with ⟨r', h1⟩ | h1 | ⟨x, h1, h2⟩ | h1
    · exact .inl ⟨r', List.mem_cons_of_mem _ h1⟩
    · exact .inr (.inl h1)
    · refine .inr (.inr (.inl ⟨x.free w, ?_, (free_aw w x v).2 ⟨h2, hvw⟩⟩))
      simp only [List.mem_map, List.mem_filter]
      refine ⟨x, ⟨h1, ?_⟩, rfl⟩
      have : x.id ≠ m.id := by
        intro he
        have := eq_of_id hnd h1 hm he
        subst this
        exact hvw (hx v h2)
      simpa using this
    · exact .inr (.inr (.inr ((List.mem_cons.1 h1).resolve_left hvw)))

/-- A wait fails with the exception of a member. -/
theorem WF.keep {es : List Ev} {L : List Nat} {s : St} {w : Nat} (h : WF es (w :: L) s) (hL : w ∉ L) (r : Res) (j : Nat) (ho : ∀ v ids, s.one = some (v, ids) → v ≠ w) :
    WF es L { s with
      members := (s.members.map fun x => if x.id = j then { x with taken := true } else x).map (Mem.free w)
      log := (w, r) :: s.log } := by
  have f1 : ∀ x : Mem, ((if x.id = j then { x with taken := true } else x : Mem).free w).id = x.id := by
    intro x; rw [free_id]; split <;> rfl
  have f2 : ∀ x : Mem, ((if x.id = j then { x with taken := true } else x : Mem).free w).out = x.out := by
    intro x; rw [free_out]; split <;> rfl
  have f3 : ∀ (x : Mem) v, ((if x.id = j then { x with taken := true } else x : Mem).free w).aw = some v ↔ x.aw = some v ∧ v ≠ w := by
    intro x v; rw [free_aw]; split <;> rfl
  rw [List.map_map]
  generalize hf : (Mem.free w ∘ fun x : Mem => if x.id = j then { x with taken := true } else x) = f
  have f1 : ∀ x, (f x).id = x.id := by subst hf; exact f1
  have f2 : ∀ x, (f x).out = x.out := by subst hf; exact f2
  have f3 : ∀ x v, (f x).aw = some v ↔ x.aw = some v ∧ v ≠ w := by subst hf; exact f3
  clear hf
  obtain ⟨a1, a2, a3, a4, a5, a6, a7, a8, a9, a10, a11, a12⟩ := h
  constructor
  all_goals dsimp only
  all_goals try simp only [List.mem_map]
  · rw [map_id f1]; exact a1
  · grind
  · grind
  · grind
  · intro id hid
    rcases a5 id hid with ⟨x, hx, rfl⟩ | ⟨g, hg, rfl⟩
    · exact .inl ⟨_, ⟨x, hx, rfl⟩, f1 x⟩
    · exact .inr ⟨g, hg, rfl⟩
  · grind
  · intro v ids hv
    obtain ⟨h1, h2, h3⟩ := a7 v ids hv
    refine ⟨by rw [map_id f1]; exact h1, h2, ?_⟩
    grind
  · grind
  · simp only [List.map_cons, List.nodup_cons]
    refine ⟨?_, a9⟩
    intro hm
    obtain ⟨⟨v, r⟩, h1, h2⟩ := List.mem_map.1 hm
    cases h2
    exact (a8 v r h1).2.2 List.mem_cons_self
  · grind
  · grind
  · intro v hv
    by_cases hvw : v = w
    · exact .inl ⟨r, by rw [hvw]; exact List.mem_cons_self⟩
    rcases a12 v hv with ⟨r', h1⟩ | h1 | ⟨x, h1, h2⟩ | h1
    · exact .inl ⟨r', List.mem_cons_of_mem _ h1⟩
    · exact .inr (.inl h1)
    · exact .inr (.inr (.inl ⟨f x, ⟨x, h1, rfl⟩, (f3 x v).2 ⟨h2, hvw⟩⟩))
    · exact .inr (.inr (.inr ((List.mem_cons.1 h1).resolve_left hvw)))

/-- A wait that waits for a member need not be listed. -/
theorem WF.weaken {es : List Ev} {L : List Nat} {s : St} {w : Nat} (h : WF es (w :: L) s)
    (hb : ∃ m ∈ s.members, m.aw = some w) : WF es L s := by
  obtain ⟨a1, a2, a3, a4, a5, a6, a7, a8, a9, a10, a11, a12⟩ := h
  constructor <;> grind

/-- A member that `w` waits for goes on. -/
theorem WF.take {es es' : List Ev} {L : List Nat} {s : St} {m : Mem} {w : Nat} {o : Option Out} (h : WF es L s)
    (hm : m ∈ s.members) (hw : m.aw = some w)
    (hE : ∀ j, Ended es' j ↔ Ended es j ∨ (j = m.id ∧ o ≠ none)) (hA : ∀ j, Added es' j ↔ Added es j)
    {q : Option (Nat × List Nat)} (hq : (∀ v ids, s.one = some (v, ids) → v ≠ w) ∧ q = s.one ∨ q = none)
    (_hb : ∀ v ∈ L, ∀ m ∈ s.members, m.aw ≠ some v) :
    WF es' (w :: L) { s.take m.id o with one := q } := by
  generalize hf : (fun x : Mem => if x.id = m.id then { x with out := o, aw := none, taken := true } else x) = f
  have f1 : ∀ x, (f x).id = x.id := by subst hf; intro x; dsimp only; split <;> rfl
  have f2 : ∀ x, x.id = m.id → (f x).out = o ∧ (f x).aw = none := by subst hf; intro x hx; simp [hx]
  have f3 : ∀ x, x.id ≠ m.id → f x = x := by subst hf; intro x hx; simp [hx]
  have hnd := h.nodup
  obtain ⟨a1, a2, a3, a4, a5, a6, a7, a8, a9, a10, a11, a12⟩ := h
  obtain ⟨m1, m2, m3, m4⟩ := a6 m hm w hw
  constructor
  all_goals dsimp only [St.take]
  all_goals rw [hf] at *
  all_goals try simp only [List.mem_map]
  · rw [map_id f1]; exact a1
  · grind
  · rintro _ ⟨x, hx, rfl⟩
    rw [f1, hE]
    by_cases he : x.id = m.id
    · rw [(f2 x he).1]
      have := a3 m hm
      rw [he]
      grind
    · rw [f3 x he, a3 x hx]
      grind
  · intro g hg
    have := a2 m hm g hg
    rw [hE, a4 g hg]
    grind
  · intro id hid
    rw [hE, hA] at hid
    have hid' : (∃ x ∈ s.members, x.id = id) ∨ ∃ g ∈ s.gone, g.id = id := by
      rcases hid with (hid | ⟨rfl, -⟩) | hid
      · exact a5 id (.inl hid)
      · exact .inl ⟨m, hm, rfl⟩
      · exact a5 id (.inr hid)
    rcases hid' with ⟨x, hx, rfl⟩ | ⟨g, hg, rfl⟩
    · exact .inl ⟨_, ⟨x, hx, rfl⟩, f1 x⟩
    · exact .inr ⟨g, hg, rfl⟩
  · rintro _ ⟨x, hx, rfl⟩ v hv
    by_cases he : x.id = m.id
    · rw [(f2 x he).2] at hv; cases hv
    · rw [f3 x he] at hv ⊢
      exact a6 x hx v hv
  · intro v ids hv
    rcases hq with ⟨hq, rfl⟩ | rfl
    · obtain ⟨h1, h2, h3⟩ := a7 v ids hv
      have hvw := hq v ids hv
      refine ⟨by rw [map_id f1]; exact h1, h2, ?_⟩
      rintro _ ⟨x, hx, rfl⟩
      rw [f1]
      by_cases he : x.id = m.id
      · rw [(f2 x he).2, he, ← h3 m hm, hw]
        grind
      · rw [f3 x he]; exact h3 x hx
    · cases hv
  · grind
  · exact a9
  · grind
  · grind
  · intro v hv
    by_cases hvw : v = w
    · exact .inr (.inr (.inr (by rw [hvw]; exact List.mem_cons_self)))
    rcases a12 v hv with h1 | h1 | ⟨x, h1, h2⟩ | h1
    · exact .inl h1
    · exact .inr (.inl h1)
    · refine .inr (.inr (.inl ⟨f x, ⟨x, h1, rfl⟩, ?_⟩))
      by_cases he : x.id = m.id
      · have := eq_of_id hnd h1 hm he
        subst this
        rw [hw] at h2
        cases h2
        exact absurd rfl hvw
      · rw [f3 x he]; exact h2
    · exact .inr (.inr (.inr (List.mem_cons_of_mem _ h1)))

theorem take_mem {s : St} {id : Nat} {o : Option Out} {x : Mem} (hx : x ∈ (s.take id o).members) :
    (x.id = id ∧ x.aw = none ∧ x.out = o) ∨ (x.id ≠ id ∧ x ∈ s.members) := by
  simp only [St.take, List.mem_map] at hx
  obtain ⟨y, hy, rfl⟩ := hx
  by_cases he : y.id = id
  · simp [he]
  · simp [he, hy]

/-- What `wonBy` does. -/
theorem wonBy_cases (s : St) (w i : Nat) {m : Mem} (hm : s.members[i]? = some m) (hnd : (s.members.map Mem.id).Nodup) :
    (∃ e, m.out = some (.err e) ∧ s.wonBy w i = { s with
      members := (s.members.map fun x => if x.id = m.id then { x with taken := true } else x).map (Mem.free w)
      log := (w, .err e) :: s.log }) ∨
    ((∀ e, m.out ≠ some (.err e)) ∧ s.wonBy w i = { s with
      members := (s.members.filter fun x => !(x.id == m.id)).map (Mem.free w)
      log := (w, .ok) :: s.log, gone := { m with taken := true } :: s.gone }) := by
  unfold St.wonBy
  rw [hm]
  dsimp only
  split
  · rename_i e he
    exact .inl ⟨e, he, rfl⟩
  · rename_i he
    exact .inr ⟨he, by rw [eraseIdx_filter hnd hm]⟩

/-- A member that `w` waits for goes on, and `w` may end. -/
theorem WF.wake {es es' : List Ev} {L : List Nat} {s : St} {m : Mem} {w : Nat} {o : Option Out} (h : WF es L s)
    (hm : m ∈ s.members) (hw : m.aw = some w)
    (hE : ∀ j, Ended es' j ↔ Ended es j ∨ (j = m.id ∧ o ≠ none)) (hA : ∀ j, Added es' j ↔ Added es j)
    (hb : ∀ v ∈ L, ∀ m ∈ s.members, m.aw ≠ some v) :
    WF es' L ((s.take m.id o).wake w m.id) ∧ ((s.take m.id o).wake w m.id).ub = s.ub := by
  have hwL : w ∉ L := fun hl => hb w hl m hm hw
  have hgather : (∀ v ids, s.one = some (v, ids) → v ≠ w) →
      WF es' L (if (s.take m.id o).busy w then s.take m.id o else (s.take m.id o).clear w) ∧
      (if (s.take m.id o).busy w then s.take m.id o else (s.take m.id o).clear w).ub = s.ub := by
    intro hg
    have hT : WF es' (w :: L) (s.take m.id o) := h.take hm hw hE hA (.inl ⟨hg, rfl⟩) hb
    split
    · rename_i hbusy
      exact ⟨hT.weaken ((busy_iff _ _).1 hbusy), rfl⟩
    · rename_i hbusy
      refine ⟨hT.clear hwL ?_, rfl⟩
      intro v hv x hx
      rcases List.mem_cons.1 hv with rfl | hv
      · exact (busy_false _ _).1 hbusy x hx
      · rcases take_mem hx with ⟨-, h1, -⟩ | ⟨-, h1⟩
        · rw [h1]; simp
        · exact hb v hv x h1
  unfold St.wake
  have ho : (s.take m.id o).one = s.one := rfl
  rw [ho]
  split
  · rename_i w' ids h1
    split
    · rename_i he
      subst he
      obtain ⟨b1, b2, b3⟩ := h.one w' ids h1
      have hT : WF es' (w' :: L) { s.take m.id o with one := none } := h.take hm hw hE hA (.inr rfl) hb
      have hm' : { m with out := o, aw := none, taken := true } ∈ (s.take m.id o).members := by
        simp only [St.take, List.mem_map]
        exact ⟨m, hm, by simp⟩
      have hp : ids <+: (s.take m.id o).members.map Mem.id := by
        simp only [St.take]
        rw [map_id (by intro x; split <;> rfl)]
        exact b1
      have hx := getElem_findIdx hT.nodup hp hm' ((b3 m hm).1 hw)
      rcases wonBy_cases { s.take m.id o with one := none } w' (ids.findIdx (· = m.id)) hx hT.nodup with
        ⟨e, -, h2⟩ | ⟨-, h2⟩
      · rw [h2]
        exact ⟨hT.keep hwL _ _ (by simp), rfl⟩
      · rw [h2]
        exact ⟨hT.drop hwL _ hm' (by simp) (by simp), rfl⟩
    · rename_i hne
      exact hgather fun v ids' hv => by rw [h1] at hv; cases hv; exact hne
  · rename_i h1
    exact hgather fun v ids' hv => by rw [h1] at hv; cases hv

end Cobalt.Shared
