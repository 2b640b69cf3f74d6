import Verif.Shared.ExactLemmas

/-!
# What becomes of a pending `wait`
-/
namespace Cobalt.Shared
open Group (Out Res)

/-- A `wait` that is pending goes on waiting, or its coroutine is destroyed, or it ends: then the group is empty and everybody
else who waited was destroyed. -/
def After (s t : St) (v : Nat) : Prop :=
  t.waiting v ∨ v ∈ t.killed ∨ (t.members = [] ∧ ∀ u, s.busy u = true → u ≠ v → u ∈ t.killed)

theorem after_wake {es : List Ev} {L : List Nat} {s : St} {m : Mem} {w v : Nat} (o : Option Out) (h : WF es L s)
    (hm : m ∈ s.members) (hw : m.aw = some w) (hv : s.waiting v) : After s ((s.take m.id o).wake w m.id) v := by
  obtain ⟨hb, ho⟩ := hv
  have hst : ∀ x ∈ s.members, x.id ≠ m.id → x ∈ (s.take m.id o).members := by
    intro x hx hne
    simp only [St.take, List.mem_map]
    exact ⟨x, hx, by simp [hne]⟩
  -- a member that another wait waits for stays as it is
  have hoth : ∀ u, u ≠ w → s.busy u = true → ∃ x ∈ s.members, x.id ≠ m.id ∧ x.aw = some u := by
    intro u hu hbu
    obtain ⟨x, hx, h1⟩ := (busy_iff _ _).1 hbu
    refine ⟨x, hx, ?_, h1⟩
    intro he
    have := eq_of_id h.nodup hx hm he
    rw [this, hw] at h1
    cases h1
    exact hu rfl
  rcases wake_cases o h hm hw with ⟨ids, h1, h2⟩ | ⟨-, ⟨⟨x, hx, h1, h2⟩, e⟩ | ⟨-, e⟩⟩
  · have hvw : v ≠ w := fun he => ho _ h1 he.symm
    obtain ⟨x, hx, h3, h4⟩ := hoth v hvw hb
    rcases h2 with ⟨y, -, e⟩ | ⟨-, e⟩
    · rw [e]
      refine .inl ⟨(busy_iff _ _).2 ⟨x.free w, ?_, (free_aw w x v).2 ⟨h4, hvw⟩⟩, by simp⟩
      simp only [List.mem_map]
      exact ⟨x, ⟨x, hst x hx h3, by simp [h3]⟩, rfl⟩
    · rw [e]
      refine .inl ⟨(busy_iff _ _).2 ⟨x.free w, ?_, (free_aw w x v).2 ⟨h4, hvw⟩⟩, by simp⟩
      simp only [List.mem_map, List.mem_filter]
      exact ⟨x, ⟨hst x hx h3, by simpa using h3⟩, rfl⟩
  · rw [e]
    refine .inl ⟨(busy_iff _ _).2 ?_, ho⟩
    by_cases hvw : v = w
    · rw [hvw]; exact ⟨x, hst x hx h1, h2⟩
    · obtain ⟨y, hy, h3, h4⟩ := hoth v hvw hb
      exact ⟨y, hst y hy h3, h4⟩
  · rw [e]
    have hk : ∀ u, u ≠ w → s.busy u = true → u ∈ ((s.take m.id o).clear w).killed := by
      intro u hu hbu
      obtain ⟨y, hy, h3, h4⟩ := hoth u hu hbu
      exact List.mem_append_left _ (List.mem_filterMap.2 ⟨y, hst y hy h3, h4⟩)
    by_cases hvw : v = w
    · subst hvw
      exact .inr (.inr ⟨rfl, fun u hbu hu => hk u hu hbu⟩)
    · exact .inr (.inl (hk v hvw hb))

theorem after_act {es : List Ev} {s : St} (h : WF es [] s) {e : Ev} (hc : s.can e = true) {v : Nat} (hv : s.waiting v) :
    After s (s.act e) v := by
  obtain ⟨hb, ho⟩ := id hv
  obtain ⟨x, hx, hxv⟩ := (busy_iff _ _).1 hb
  have hvn : v < s.next := (h.aw x hx v hxv).2.1
  cases e with
  | push id =>
    refine .inl ⟨(busy_iff _ _).2 ⟨x, ?_, hxv⟩, ho⟩
    simp only [St.act]
    exact List.mem_append_left _ hx
  | complete id o =>
    simp only [St.can, List.any_eq_true, Bool.and_eq_true, beq_iff_eq] at hc
    obtain ⟨m, hm, rfl, -⟩ := hc
    simp only [St.act, (h.complete hm o).1]
    cases hw : m.aw with
    | none =>
      refine .inl ⟨(busy_iff _ _).2 ⟨x, ?_, hxv⟩, ho⟩
      simp only [List.mem_map]
      refine ⟨x, hx, ?_⟩
      rw [if_neg]
      intro he
      have := eq_of_id h.nodup hx hm he
      rw [this, hw] at hxv
      cases hxv
    | some w => exact after_wake _ h hm hw hv
  | waitOne order =>
    simp only [St.act]
    rcases waitOne_cases h (List.isPerm_iff.1 hc) with ⟨h1, e⟩ | ⟨-, h1, e⟩ | ⟨i, m, -, hm, hmem, ⟨-, hw, e⟩ | ⟨w, -, hw, e⟩⟩
    · rw [h1] at hx; cases hx
    · rw [(h1 x hx).2] at hxv; cases hxv
    · rw [e]
      have hne : x.id ≠ m.id := by
        intro he
        have := eq_of_id h.nodup hx hmem he
        rw [this, hw] at hxv
        cases hxv
      rcases wonBy_cases { s with next := s.next + 1 } s.next i hm h.nodup with ⟨y, -, h2⟩ | ⟨-, h2⟩ <;> rw [h2]
      · refine .inl ⟨(busy_iff _ _).2 ⟨x.free s.next, ?_, (free_aw _ x v).2 ⟨hxv, by omega⟩⟩, ho⟩
        simp only [List.mem_map]
        exact ⟨x, ⟨x, hx, by simp [hne]⟩, rfl⟩
      · refine .inl ⟨(busy_iff _ _).2 ⟨x.free s.next, ?_, (free_aw _ x v).2 ⟨hxv, by omega⟩⟩, ho⟩
        simp only [List.mem_map, List.mem_filter]
        exact ⟨x, ⟨hx, by simpa using hne⟩, rfl⟩
    · rw [e]
      rcases after_wake (v := v) none h.begin hmem hw hv with h1 | h1 | h1
      · exact .inl h1
      · exact .inr (.inl h1)
      · exact .inr (.inr h1)
  | waitAll =>
    simp only [St.act]
    rcases waitAll_cases s with ⟨h1, e⟩ | ⟨-, -, e⟩ | ⟨-, -, e⟩
    · rw [h1] at hx; cases hx
    · rw [e]
      exact .inl ⟨(busy_iff _ _).2 ⟨_, List.mem_map_of_mem hx, (gathered_aw _ x v).2 (.inl hxv)⟩, ho⟩
    · rw [e]
      exact .inr (.inl (List.mem_append_left _ (List.mem_filterMap.2
        ⟨_, List.mem_map_of_mem hx, (gathered_aw _ x v).2 (.inl hxv)⟩)))
  | reap =>
    refine .inl ⟨(busy_iff _ _).2 ⟨x, ?_, hxv⟩, ho⟩
    simp only [St.act, St.reap, List.mem_filter]
    refine ⟨hx, ?_⟩
    simp [St.ripe, (h.aw x hx v hxv).1]

/-! ## If nothing overlaps -/

/-- Whoever waits for all waits for each member that has not ended. -/
def Total (s : St) : Prop := ∀ w, s.waiting w → ∀ m ∈ s.members, m.out = none → m.aw = some w

theorem idle_of {es : List Ev} {s : St} (h : WF es [] s) (ho : ∀ w < s.next, s.over w) :
    ∀ m ∈ s.members, m.aw = none := by
  intro m hm
  cases hw : m.aw with
  | none => rfl
  | some w =>
    obtain ⟨h1, h2, h3, h4⟩ := h.aw m hm w hw
    obtain ⟨r, hr⟩ := ho w h2
    exact absurd hr (h4 r)

theorem free_none (w : Nat) (m : Mem) (h : m.aw = none) : (m.free w).aw = none := by
  unfold Mem.free; split
  · rfl
  · exact h

theorem total_act {es : List Ev} {s : St} (h : WF es [] s) {e : Ev} (hc : s.can e = true) (ht : Total s)
    (h1 : (e = .waitAll ∨ ∃ order, e = .waitOne order) → ∀ m ∈ s.members, m.aw = none)
    (h2 : ∀ id, e = .push id → ∀ w, ¬ s.waiting w) : Total (s.act e) := by
  intro w hw
  have hb' := (busy_iff _ _).1 hw.1
  cases e with
  | push id =>
    exfalso
    refine h2 id rfl w ⟨(busy_iff _ _).2 ?_, hw.2⟩
    obtain ⟨x, hx, hxw⟩ := hb'
    simp only [St.act, List.mem_append, List.mem_singleton] at hx
    rcases hx with hx | rfl
    · exact ⟨x, hx, hxw⟩
    · cases hxw
  | complete id o =>
    simp only [St.can, List.any_eq_true, Bool.and_eq_true, beq_iff_eq] at hc
    obtain ⟨m, hm, rfl, -⟩ := hc
    simp only [St.act, (h.complete hm o).1] at hw hb' ⊢
    cases hma : m.aw with
    | none =>
      rw [hma] at hw hb'
      dsimp only at hw hb' ⊢
      have hws : s.waiting w := by
        refine ⟨(busy_iff _ _).2 ?_, hw.2⟩
        obtain ⟨x, hx, hxw⟩ := hb'
        obtain ⟨y, hy, rfl⟩ := List.mem_map.1 hx
        refine ⟨y, hy, ?_⟩
        split at hxw <;> exact hxw
      intro x hx hxo
      obtain ⟨y, hy, rfl⟩ := List.mem_map.1 hx
      split at hxo
      · cases hxo
      · rename_i hne
        rw [if_neg hne]
        exact ht w hws y hy hxo
    | some v =>
      rw [hma] at hw hb'
      dsimp only at hw hb' ⊢
      rcases wake_cases (some o) h hm hma with ⟨ids, h3, h4⟩ | ⟨hwt, ⟨-, e⟩ | ⟨-, e⟩⟩
      · -- a race: nobody waits for all
        exfalso
        have hT : ∀ x ∈ (s.take m.id (some o)).members, ∀ u, x.aw = some u → ∃ y ∈ s.members, y.aw = some u := by
          intro x hx u hu
          rcases take_mem hx with ⟨-, h5, -⟩ | ⟨-, h5⟩
          · rw [h5] at hu; cases hu
          · exact ⟨x, h5, hu⟩
        have : ∃ y ∈ s.members, y.aw = some w ∧ w ≠ v := by
          obtain ⟨x, hx, hxw⟩ := hb'
          rcases h4 with ⟨y, -, e⟩ | ⟨-, e⟩
          · rw [e] at hx
            simp only [List.mem_map] at hx
            obtain ⟨z, ⟨y, hy, rfl⟩, rfl⟩ := hx
            obtain ⟨h5, h6⟩ := (free_aw v _ w).1 hxw
            obtain ⟨q, hq, h7⟩ := hT y hy w (by split at h5 <;> exact h5)
            exact ⟨q, hq, h7, h6⟩
          · rw [e] at hx
            simp only [List.mem_map, List.mem_filter] at hx
            obtain ⟨y, ⟨hy, -⟩, rfl⟩ := hx
            obtain ⟨h5, h6⟩ := (free_aw v _ w).1 hxw
            obtain ⟨q, hq, h7⟩ := hT y hy w h5
            exact ⟨q, hq, h7, h6⟩
        obtain ⟨y, hy, h5, h6⟩ := this
        have hws : s.waiting w := ⟨(busy_iff _ _).2 ⟨y, hy, h5⟩, by
          rintro p hp rfl
          rw [h3] at hp
          cases hp
          exact h6 rfl⟩
        have := ht w hws m hm (h.aw m hm v hma).1
        rw [hma] at this
        cases this
        exact h6 rfl
      · rw [e] at hw hb' ⊢
        intro x hx hxo
        rcases take_mem hx with ⟨-, -, h5⟩ | ⟨-, h5⟩
        · rw [hxo] at h5; cases h5
        · have h6 := ht v hwt x h5 hxo
          -- only one wait is pending
          obtain ⟨y, hy, hyw⟩ := hb'
          rcases take_mem hy with ⟨-, h7, -⟩ | ⟨-, h7⟩
          · rw [h7] at hyw; cases hyw
          · have h8 := ht v hwt y h7 (h.aw y h7 w hyw).1
            rw [hyw] at h8
            cases h8
            exact h6
      · rw [e] at hb'
        obtain ⟨y, hy, -⟩ := hb'
        cases hy
  | waitOne order =>
    exfalso
    have hid := h1 (.inr ⟨order, rfl⟩)
    simp only [St.act] at hw hb'
    rcases waitOne_cases h (List.isPerm_iff.1 hc) with ⟨h3, e⟩ | ⟨-, h3, e⟩ | ⟨i, m, -, hm, hmem, ⟨-, -, e⟩ | ⟨v, -, hv, e⟩⟩
    · rw [e] at hb'
      obtain ⟨x, hx, -⟩ := hb'
      dsimp only at hx
      rw [h3] at hx
      cases hx
    · rw [e] at hw hb'
      obtain ⟨x, hx, hxw⟩ := hb'
      obtain ⟨y, hy, rfl⟩ := List.mem_map.1 hx
      cases hxw
      exact hw.2 _ rfl rfl
    · rw [e] at hb'
      obtain ⟨x, hx, hxw⟩ := hb'
      rcases wonBy_cases { s with next := s.next + 1 } s.next i hm h.nodup with ⟨y, -, h2⟩ | ⟨-, h2⟩ <;> rw [h2] at hx
      · simp only [List.mem_map] at hx
        obtain ⟨z, ⟨y, hy, rfl⟩, rfl⟩ := hx
        have h5 := ((free_aw _ _ w).1 hxw).1
        have h6 := hid y hy
        split at h5
        · rw [h6] at h5; cases h5
        · rw [h6] at h5; cases h5
      · simp only [List.mem_map, List.mem_filter] at hx
        obtain ⟨y, ⟨hy, -⟩, rfl⟩ := hx
        have h5 := ((free_aw _ _ w).1 hxw).1
        rw [hid y hy] at h5
        cases h5
    · rw [hid m hmem] at hv
      cases hv
  | waitAll =>
    have hid := h1 (.inl rfl)
    simp only [St.act] at hw hb' ⊢
    rcases waitAll_cases s with ⟨h3, e⟩ | ⟨-, -, e⟩ | ⟨-, -, e⟩
    · rw [e] at hb'
      obtain ⟨x, hx, -⟩ := hb'
      dsimp only at hx
      rw [h3] at hx
      cases hx
    · rw [e] at hb' ⊢
      obtain ⟨x, hx, hxw⟩ := hb'
      obtain ⟨y, hy, rfl⟩ := List.mem_map.1 hx
      have hwn : w = s.next := by
        rcases (gathered_aw _ y w).1 hxw with h5 | h5
        · rw [hid y hy] at h5; cases h5
        · exact h5.2.2
      intro z hz hzo
      obtain ⟨q, hq, rfl⟩ := List.mem_map.1 hz
      rw [gathered_out] at hzo
      exact (gathered_aw _ q w).2 (.inr ⟨hzo, hid q hq, hwn⟩)
    · rw [e] at hb'
      obtain ⟨y, hy, -⟩ := hb'
      cases hy
  | reap =>
    simp only [St.act, St.reap] at hw hb' ⊢
    intro x hx hxo
    obtain ⟨y, hy, hyw⟩ := hb'
    exact ht w ⟨(busy_iff _ _).2 ⟨y, (List.mem_filter.1 hy).1, hyw⟩, hw.2⟩ x (List.mem_filter.1 hx).1 hxo

/-! ## When the behaviour is undefined -/

theorem wake_ub {es : List Ev} {L : List Nat} {s : St} {m : Mem} {w : Nat} (o : Option Out) (h : WF es L s)
    (hm : m ∈ s.members) (hw : m.aw = some w) : ((s.take m.id o).wake w m.id).ub = s.ub := by
  rcases wake_cases o h hm hw with ⟨ids, -, ⟨x, -, e⟩ | ⟨-, e⟩⟩ | ⟨-, ⟨-, e⟩ | ⟨-, e⟩⟩ <;> rw [e] <;> rfl

/-- The member that was come to is destroyed exactly if the wait that is resumed ends. -/
theorem wake_gone {es : List Ev} {L : List Nat} {s : St} {m : Mem} {w : Nat} (h : WF es L s)
    (hm : m ∈ s.members) (hw : m.aw = some w) : (((s.take m.id none).wake w m.id).gone.any fun g => g.id == m.id) = true ↔
      (s.waiting w → ∀ x ∈ s.members, x.aw = some w → x.id = m.id) := by
  rcases wake_cases none h hm hw with ⟨ids, h1, ⟨x, hx, -⟩ | ⟨-, e⟩⟩ | ⟨hwt, ⟨⟨x, hx, h1, h2⟩, e⟩ | ⟨h1, e⟩⟩
  · cases hx
  · rw [e]
    refine ⟨fun _ hwt => absurd rfl (hwt.2 _ h1), fun _ => ?_⟩
    simp
  · rw [e]
    refine ⟨fun hg => ?_, fun hg => absurd (hg hwt x hx h2) h1⟩
    simp only [St.take, List.any_eq_true, beq_iff_eq] at hg
    obtain ⟨g, hg, h3⟩ := hg
    exact absurd h3.symm (h.disj m hm g hg)
  · rw [e]
    refine ⟨fun _ _ => h1, fun _ => ?_⟩
    simp only [St.clear, List.any_append, Bool.or_eq_true, List.any_reverse]
    refine .inl ?_
    simp only [St.take, List.any_map, List.any_eq_true]
    exact ⟨m, hm, by simp⟩

theorem ub_step {es : List Ev} {s : St} (h : WF es [] s) (hu : s.ub = false) {e : Ev} (hc : s.can e = true) :
    (s.act e).ub = true ↔ Reused s e := by
  have no : ∀ t : St, t.ub = s.ub → (t.ub = true ↔ False) := fun t ht => by rw [ht, hu]; simp
  cases e with
  | push id => exact no _ rfl
  | reap => exact no _ rfl
  | complete id o =>
    refine no _ ?_
    simp only [St.can, List.any_eq_true, Bool.and_eq_true, beq_iff_eq] at hc
    obtain ⟨m, hm, rfl, -⟩ := hc
    simp only [St.act, (h.complete hm o).1]
    cases hw : m.aw with
    | none => rfl
    | some w => exact wake_ub _ h hm hw
  | waitAll =>
    refine no _ ?_
    simp only [St.act]
    rcases waitAll_cases s with ⟨-, e⟩ | ⟨-, -, e⟩ | ⟨-, -, e⟩ <;> rw [e] <;> rfl
  | waitOne order =>
    simp only [St.act]
    rcases waitOne_cases h (List.isPerm_iff.1 hc) with ⟨h1, e⟩ | ⟨-, h1, e⟩ | ⟨i, m, hi, hm, hmem, ⟨h1, h2, e⟩ | ⟨w, ho, hw, e⟩⟩
    · rw [e]
      refine ⟨fun hx => (by rw [hu] at hx; cases hx), fun ⟨i, m, w, _, _, hm, _⟩ => ?_⟩
      rw [h1] at hm; cases hm
    · rw [e]
      refine ⟨fun hx => (by rw [hu] at hx; cases hx), fun ⟨i, m, w, _, _, hm, _, hw, _⟩ => ?_⟩
      rw [(h1 m (List.mem_of_getElem? hm)).2] at hw; cases hw
    · rw [e]
      have hub : ({ s with next := s.next + 1 }.wonBy s.next i).ub = false := by
        rcases wonBy_cases { s with next := s.next + 1 } s.next i hm h.nodup with ⟨x, -, h2⟩ | ⟨-, h2⟩ <;> rw [h2] <;>
          exact hu
      rw [hub]
      refine ⟨fun hx => (by cases hx), fun ⟨i', m', w, hi', _, hm', _, hw, _⟩ => ?_⟩
      rw [hi] at hi'; cases hi'
      rw [hm] at hm'; cases hm'
      rw [h2] at hw; cases hw
    · rw [e]
      have h1 := wake_ub none h.begin hmem hw
      have h2 := wake_gone h.begin hmem hw
      have h3 : St.waiting { s with next := s.next + 1 } w ↔ s.waiting w := Iff.rfl
      rw [h3] at h2
      have h6 : ({ s with next := s.next + 1 } : St).ub = false := hu
      change _ ↔ (s.waiting w → ∀ x ∈ s.members, x.aw = some w → x.id = m.id) at h2
      generalize ({ s with next := s.next + 1 } : St) = B at h1 h2 h6 ⊢
      simp only [St.clash, h1, h6, Bool.false_or, Bool.and_eq_true, bne_iff_ne, h2]
      constructor
      · rintro ⟨h4, h5⟩
        exact ⟨i, m, w, hi, h4, hm, ho, hw, h5⟩
      · rintro ⟨i', m', w', hi', h4, hm', -, hw', h5⟩
        rw [hi] at hi'; cases hi'
        rw [hm] at hm'; cases hm'
        rw [hw] at hw'; cases hw'
        exact ⟨h4, h5⟩

end Cobalt.Shared
