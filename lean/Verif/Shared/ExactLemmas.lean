import Verif.Shared.Inv

/-!
# When a shared group goes wrong
-/
namespace Cobalt.Shared
open Group (Out Res)

/-- What `wake` does. -/
theorem wake_cases {es : List Ev} {L : List Nat} {s : St} {m : Mem} {w : Nat} (o : Option Out) (h : WF es L s)
    (hm : m ∈ s.members) (hw : m.aw = some w) :
    (∃ ids, s.one = some (w, ids) ∧
      ((∃ x, o = some (.err x) ∧ (s.take m.id o).wake w m.id = { s with
          members := ((s.take m.id o).members.map fun x => if x.id = m.id then { x with taken := true } else x).map (Mem.free w)
          one := none, log := (w, .err x) :: s.log }) ∨
        ((∀ x, o ≠ some (.err x)) ∧ (s.take m.id o).wake w m.id = { s with
          members := ((s.take m.id o).members.filter fun x => !(x.id == m.id)).map (Mem.free w)
          one := none, log := (w, .ok) :: s.log
          gone := { m with out := o, aw := none, taken := true } :: s.gone }))) ∨
    (s.waiting w ∧
      (((∃ x ∈ s.members, x.id ≠ m.id ∧ x.aw = some w) ∧ (s.take m.id o).wake w m.id = s.take m.id o) ∨
        ((∀ x ∈ s.members, x.aw = some w → x.id = m.id) ∧
          (s.take m.id o).wake w m.id = (s.take m.id o).clear w))) := by
  have hbusy : (s.take m.id o).busy w = true ↔ ∃ x ∈ s.members, x.id ≠ m.id ∧ x.aw = some w := by
    rw [busy_iff]
    constructor
    · rintro ⟨x, hx, h1⟩
      rcases take_mem hx with ⟨-, h2, -⟩ | ⟨h2, h3⟩
      · rw [h2] at h1; cases h1
      · exact ⟨x, h3, h2, h1⟩
    · rintro ⟨x, hx, h1, h2⟩
      refine ⟨x, ?_, h2⟩
      simp only [St.take, List.mem_map]
      exact ⟨x, hx, by simp [h1]⟩
  have hg : (∀ x ∈ s.one, x.1 ≠ w) → (s.take m.id o).wake w m.id =
      (if (s.take m.id o).busy w then s.take m.id o else (s.take m.id o).clear w) → s.waiting w ∧
      (((∃ x ∈ s.members, x.id ≠ m.id ∧ x.aw = some w) ∧ (s.take m.id o).wake w m.id = s.take m.id o) ∨
        ((∀ x ∈ s.members, x.aw = some w → x.id = m.id) ∧
          (s.take m.id o).wake w m.id = (s.take m.id o).clear w)) := by
    intro h1 h2
    refine ⟨⟨(busy_iff _ _).2 ⟨m, hm, hw⟩, h1⟩, ?_⟩
    rw [h2]
    split
    · rename_i h3
      exact .inl ⟨hbusy.1 h3, rfl⟩
    · rename_i h3
      refine .inr ⟨?_, rfl⟩
      intro x hx h4
      apply Classical.byContradiction
      intro h5
      exact h3 (hbusy.2 ⟨x, hx, h5, h4⟩)
  cases ho : s.one with
  | none =>
    refine .inr (hg (by simp [ho]) ?_)
    unfold St.wake
    rw [show (s.take m.id o).one = s.one from rfl, ho]
  | some p =>
    obtain ⟨w', ids⟩ := p
    by_cases he : w' = w
    · subst he
      refine .inl ⟨ids, rfl, ?_⟩
      obtain ⟨b1, b2, b3⟩ := h.one w' ids ho
      have hm' : { m with out := o, aw := none, taken := true } ∈ (s.take m.id o).members := by
        simp only [St.take, List.mem_map]
        exact ⟨m, hm, by simp⟩
      have hid : (s.take m.id o).members.map Mem.id = s.members.map Mem.id := by
        simp only [St.take]
        exact map_id (by intro x; split <;> rfl)
      have hnd : ((s.take m.id o).members.map Mem.id).Nodup := by rw [hid]; exact h.nodup
      have hx := getElem_findIdx hnd (by rw [hid]; exact b1) hm' ((b3 m hm).1 hw)
      have hwk : (s.take m.id o).wake w' m.id =
          { s.take m.id o with one := none }.wonBy w' (ids.findIdx (· = m.id)) := by
        unfold St.wake
        rw [show (s.take m.id o).one = s.one from rfl, ho]
        simp
      rcases wonBy_cases { s.take m.id o with one := none } w' (ids.findIdx (· = m.id)) hx hnd with ⟨e, h1, h2⟩ | ⟨h1, h2⟩
      · exact .inl ⟨e, h1, by rw [hwk, h2]; rfl⟩
      · exact .inr ⟨h1, by rw [hwk, h2]; rfl⟩
    · refine .inr (hg (by rintro ⟨a, b⟩ hx; rw [ho] at hx; cases hx; exact he) ?_)
      unfold St.wake
      rw [show (s.take m.id o).one = s.one from rfl, ho]
      simp [he]

theorem waitAll_cases (s : St) :
    (s.members = [] ∧ s.waitAll = { s with next := s.next + 1, log := (s.next, .ok) :: s.log }) ∨
    (s.members ≠ [] ∧ (∃ m ∈ s.members, (St.gathered s.next m).aw = some s.next) ∧
      s.waitAll = { s with next := s.next + 1, members := s.members.map (St.gathered s.next) }) ∨
    (s.members ≠ [] ∧ (∀ m ∈ s.members, (St.gathered s.next m).aw ≠ some s.next) ∧
      s.waitAll = { s with next := s.next + 1, members := s.members.map (St.gathered s.next) }.clear s.next) := by
  unfold St.waitAll
  dsimp only
  split
  · rename_i h; exact .inl ⟨h, rfl⟩
  · rename_i h
    split
    · rename_i hb
      refine .inr (.inl ⟨h, ?_, rfl⟩)
      obtain ⟨x, hx, h1⟩ := (busy_iff _ _).1 hb
      obtain ⟨m, hm, rfl⟩ := List.mem_map.1 hx
      exact ⟨m, hm, h1⟩
    · rename_i hb
      refine .inr (.inr ⟨h, ?_, rfl⟩)
      intro m hm
      exact (busy_false _ _).1 hb _ (List.mem_map_of_mem hm)

/-! ## What is wrong stays wrong -/

structure Grow (s t : St) : Prop where
  ub : s.ub = true → t.ub = true
  killed : ∀ w ∈ s.killed, w ∈ t.killed
  gone : ∀ m ∈ s.gone, m ∈ t.gone
  log : ∀ p ∈ s.log, p ∈ t.log

theorem grow_wake {es : List Ev} {L : List Nat} {s : St} {m : Mem} {w : Nat} (o : Option Out) (h : WF es L s)
    (hm : m ∈ s.members) (hw : m.aw = some w) : Grow s ((s.take m.id o).wake w m.id) := by
  rcases wake_cases o h hm hw with ⟨ids, -, ⟨x, -, e⟩ | ⟨-, e⟩⟩ | ⟨-, ⟨-, e⟩ | ⟨-, e⟩⟩ <;> rw [e] <;>
    constructor <;> simp +contextual [St.take, St.clear]

theorem grow {es : List Ev} {s : St} (h : WF es [] s) {e : Ev} (hc : s.can e = true) : Grow s (s.act e) := by
  cases e with
  | push id => constructor <;> simp [St.act]
  | complete id o =>
    simp only [St.can, List.any_eq_true, Bool.and_eq_true, beq_iff_eq] at hc
    obtain ⟨m, hm, rfl, -⟩ := hc
    simp only [St.act, (h.complete hm o).1]
    cases hw : m.aw with
    | none => constructor <;> simp
    | some w => exact grow_wake _ h hm hw
  | waitOne order =>
    simp only [St.act]
    rcases waitOne_cases h (List.isPerm_iff.1 hc) with ⟨-, e⟩ | ⟨-, -, e⟩ | ⟨i, m, -, hm, hmem, ⟨-, -, e⟩ | ⟨w, -, hw, e⟩⟩
    · rw [e]; constructor <;> simp +contextual
    · rw [e]; constructor <;> simp
    · rw [e]
      rcases wonBy_cases { s with next := s.next + 1 } s.next i hm h.nodup with ⟨x, -, h2⟩ | ⟨-, h2⟩ <;> rw [h2] <;>
        constructor <;> simp +contextual
    · rw [e]
      have hg := grow_wake none h.begin hmem hw
      constructor
      · intro hu
        have := hg.ub hu
        simp only [St.clash, this, Bool.true_or]
      · exact hg.killed
      · exact hg.gone
      · exact fun p hp => List.mem_cons_of_mem _ (hg.log p hp)
  | waitAll =>
    simp only [St.act]
    rcases waitAll_cases s with ⟨-, e⟩ | ⟨-, -, e⟩ | ⟨-, -, e⟩ <;> rw [e] <;> constructor <;> simp +contextual [St.clear]
  | reap => constructor <;> simp +contextual [St.act, St.reap]

theorem not_fine {es : List Ev} {s : St} (h : WF es [] s) {e : Ev} (hc : s.can e = true)
    (hf : Fine (es ++ [e]) (s.act e)) : Fine es s := by
  have hg := grow h hc
  refine ⟨?_, ?_, ?_, ?_⟩
  · cases hu : s.ub with
    | false => rfl
    | true => have := hg.ub hu; rw [hf.ub] at this; cases this
  · apply List.eq_nil_iff_forall_not_mem.2
    intro w hw
    have := hg.killed w hw
    rw [hf.killed] at this
    cases this
  · intro m hm
    have h1 := hf.gone m (hg.gone m hm)
    rw [ended_snoc] at h1
    rcases h1 with h1 | ⟨o, rfl⟩
    · exact h1
    · simp only [St.can, List.any_eq_true, Bool.and_eq_true, beq_iff_eq] at hc
      obtain ⟨x, hx, h2, -⟩ := hc
      exact absurd h2 (h.disj x hx m hm)
  · intro w hw
    exact hf.log w (hg.log _ hw)

/-! ## One event -/

theorem gathered_new {es : List Ev} {s : St} (h : WF es [] s) {m : Mem} (hm : m ∈ s.members) :
    (St.gathered s.next m).aw = some s.next ↔ m.out = none ∧ m.aw = none := by
  rw [gathered_aw]
  have := h.fresh (Nat.le_refl s.next) m hm
  grind

theorem ended_mono {es : List Ev} {j : Nat} (e : Ev) (h : Ended es j) : Ended (es ++ [e]) j :=
  (ended_snoc es e j).2 (.inl h)

theorem fine_step {es : List Ev} {s : St} (h : WF es [] s) {e : Ev} (hc : s.can e = true) (hf : Fine es s)
    (ht : ¬ Trouble s e) : Fine (es ++ [e]) (s.act e) := by
  obtain ⟨f1, f2, f3, f4⟩ := hf
  have f3' : ∀ m ∈ s.gone, Ended (es ++ [e]) m.id := fun m hm => ended_mono e (f3 m hm)
  cases e with
  | push id => exact ⟨f1, f2, f3', f4⟩
  | complete id o =>
    simp only [St.can, List.any_eq_true, Bool.and_eq_true, beq_iff_eq] at hc
    obtain ⟨m, hm, rfl, ho⟩ := hc
    simp only [St.act, (h.complete hm o).1]
    have hE : Ended (es ++ [.complete m.id o]) m.id := (ended_complete es m.id o _).2 (.inr rfl)
    cases hw : m.aw with
    | none => exact ⟨f1, f2, f3', f4⟩
    | some w =>
      dsimp only
      rcases wake_cases (some o) h hm hw with ⟨ids, -, ⟨x, -, e⟩ | ⟨-, e⟩⟩ | ⟨hwt, ⟨-, e⟩ | ⟨hlast, e⟩⟩ <;> rw [e]
      · exact ⟨f1, f2, f3', by simpa using f4⟩
      · refine ⟨f1, f2, ?_, by simpa using f4⟩
        intro g hg
        rcases List.mem_cons.1 hg with rfl | hg
        · exact hE
        · exact f3' g hg
      · exact ⟨f1, f2, f3', f4⟩
      · have hall : ∀ x ∈ s.members, x.id ≠ m.id → x.out ≠ none := by
          intro x hx hne hxo
          exact ht ⟨w, m, hm, rfl, hw, hwt, hlast, x, hx, hne, hxo⟩
        refine ⟨f1, ?_, ?_, by simpa [St.clear, St.take] using f4⟩
        · simp only [St.clear, show (s.take m.id (some o)).killed = s.killed from rfl, f2, List.append_nil]
          apply List.eq_nil_iff_forall_not_mem.2
          intro v hv
          obtain ⟨x, hx, hv⟩ := List.mem_filterMap.1 hv
          rcases take_mem hx with ⟨-, h2, -⟩ | ⟨h2, h3⟩
          · rw [h2] at hv; cases hv
          · exact hall x h3 h2 (h.aw x h3 v hv).1
        · intro g hg
          simp only [St.clear, List.mem_append, List.mem_reverse] at hg
          rcases hg with hg | hg
          · rcases take_mem hg with ⟨h2, -, -⟩ | ⟨h2, h3⟩
            · rw [h2]; exact hE
            · apply ended_mono
              apply Classical.byContradiction
              intro hn
              exact hall g h3 h2 ((h.out g h3).2 hn)
          · exact f3' g hg
  | waitOne order =>
    simp only [St.act]
    rcases waitOne_cases h (List.isPerm_iff.1 hc) with ⟨-, e⟩ | ⟨-, -, e⟩ | ⟨i, m, hi, hm, hmem, ⟨ho, -, e⟩ | ⟨w, ho, hw, e⟩⟩
    · rw [e]; exact ⟨f1, f2, f3', by simpa using f4⟩
    · rw [e]; exact ⟨f1, f2, f3', f4⟩
    · rw [e]
      rcases wonBy_cases { s with next := s.next + 1 } s.next i hm h.nodup with ⟨x, -, h2⟩ | ⟨-, h2⟩ <;> rw [h2]
      · exact ⟨f1, f2, f3', by simpa using f4⟩
      · refine ⟨f1, f2, ?_, by simpa using f4⟩
        intro g hg
        rcases List.mem_cons.1 hg with rfl | hg
        · apply ended_mono
          apply Classical.byContradiction
          intro hn
          exact ho ((h.out m hmem).2 hn)
        · exact f3' g hg
    · exact absurd ⟨i, m, hi, hm, ho, by rw [hw]; simp⟩ ht
  | waitAll =>
    simp only [St.act]
    rcases waitAll_cases s with ⟨-, e⟩ | ⟨-, -, e⟩ | ⟨-, hno, e⟩ <;> rw [e]
    · exact ⟨f1, f2, f3', by simpa using f4⟩
    · exact ⟨f1, f2, f3', f4⟩
    · have hall : ∀ x ∈ s.members, x.out ≠ none := by
        intro x hx hxo
        refine ht ⟨⟨x, hx, hxo⟩, ?_⟩
        intro y hy hyo hya
        exact hno y hy ((gathered_new h hy).2 ⟨hyo, hya⟩)
      refine ⟨f1, ?_, ?_, by simpa [St.clear] using f4⟩
      · simp only [St.clear, f2, List.append_nil]
        apply List.eq_nil_iff_forall_not_mem.2
        intro v hv
        obtain ⟨x, hx, hv⟩ := List.mem_filterMap.1 hv
        obtain ⟨y, hy, rfl⟩ := List.mem_map.1 hx
        rcases (gathered_aw _ y v).1 hv with h2 | h2
        · exact hall y hy (h.aw y hy v h2).1
        · exact hall y hy h2.1
      · intro g hg
        simp only [St.clear, List.mem_append, List.mem_reverse] at hg
        rcases hg with hg | hg
        · obtain ⟨y, hy, rfl⟩ := List.mem_map.1 hg
          rw [gathered_id]
          apply ended_mono
          apply Classical.byContradiction
          intro hn
          exact hall y hy ((h.out y hy).2 hn)
        · exact f3' g hg
  | reap =>
    refine ⟨f1, f2, ?_, f4⟩
    intro g hg
    simp only [St.act, St.reap, List.mem_append, List.mem_reverse, List.mem_filter] at hg
    rcases hg with ⟨hg, hr⟩ | hg
    · apply ended_mono
      apply Classical.byContradiction
      intro hn
      have := (h.out g hg).2 hn
      simp [St.ripe, this] at hr
    · exact f3' g hg

theorem trouble_step {es : List Ev} {s : St} (h : WF es [] s) {e : Ev} (hc : s.can e = true)
    (ht : Trouble s e) : ¬ Fine (es ++ [e]) (s.act e) := by
  intro hf
  have dead : ∀ {j : Nat}, (∀ o, e ≠ .complete j o) → ∀ x ∈ s.members, x.id = j → x.out = none → ¬ Ended (es ++ [e]) j := by
    intro j hj x hx he ho hE
    rw [ended_snoc] at hE
    rcases hE with hE | ⟨o, hE⟩
    · exact (h.out x hx).1 ho (by rw [he]; exact hE)
    · exact hj o hE
  cases e with
  | push id => exact ht
  | complete id o =>
    simp only [St.can, List.any_eq_true, Bool.and_eq_true, beq_iff_eq] at hc
    obtain ⟨w, m, hm, rfl, hw, hwt, hlast, x, hx, hne, hxo⟩ := ht
    simp only [St.act, (h.complete hm o).1, hw] at hf
    rcases wake_cases (some o) h hm hw with ⟨ids, hone, -⟩ | ⟨-, ⟨⟨y, hy, h1, h2⟩, -⟩ | ⟨-, e⟩⟩
    · exact hwt.2 _ hone rfl
    · exact h1 (hlast y hy h2)
    · rw [e] at hf
      refine dead (j := x.id) (by intro o' he; injection he with h1; exact hne h1.symm) x hx rfl hxo (hf.gone x ?_)
      simp only [St.clear, List.mem_append, List.mem_reverse]
      refine .inl ?_
      simp only [St.take, List.mem_map]
      exact ⟨x, hx, by simp [hne]⟩
  | waitOne order =>
    obtain ⟨i, m, hi, hm, ho, hw⟩ := ht
    simp only [St.act] at hf
    have hmem := List.mem_of_getElem? hm
    rcases waitOne_cases h (List.isPerm_iff.1 hc) with ⟨h1, -⟩ | ⟨-, h1, -⟩ | ⟨i', m', hi', hm', -, ⟨h1, -, -⟩ | ⟨w, -, hw', e⟩⟩
    · rw [h1] at hmem; cases hmem
    · exact hw (h1 m hmem).2
    · rw [hi] at hi'; cases hi'
      rw [hm] at hm'; cases hm'
      exact h1 ho
    · rw [hi] at hi'; cases hi'
      rw [hm] at hm'; cases hm'
      rw [e] at hf
      by_cases hne : (({ s with next := s.next + 1 }.take m.id none).wake w m.id).members = []
      · -- the member is gone
        have hgone : ∃ g ∈ (({ s with next := s.next + 1 }.take m.id none).wake w m.id).gone, g.id = m.id := by
          rcases wake_cases none h.begin hmem hw' with ⟨ids, -, ⟨x, h1, -⟩ | ⟨-, e'⟩⟩ | ⟨-, ⟨-, e'⟩ | ⟨-, e'⟩⟩
          · cases h1
          · rw [e']; exact ⟨_, List.mem_cons_self, rfl⟩
          · rw [e'] at hne
            simp only [St.take, List.map_eq_nil_iff] at hne
            rw [hne] at hmem; cases hmem
          · rw [e']
            refine ⟨{ m with out := none, aw := none, taken := true }, ?_, rfl⟩
            simp only [St.clear, List.mem_append, List.mem_reverse]
            refine .inl ?_
            simp only [St.take, List.mem_map]
            exact ⟨m, hmem, by simp⟩
        obtain ⟨g, hg, hid⟩ := hgone
        have := hf.gone g hg
        rw [hid] at this
        exact dead (j := m.id) (by intro o' he; cases he) m hmem rfl ho this
      · refine hf.log s.next ?_
        simp only [St.clash, if_neg hne]
        exact List.mem_cons_self
  | waitAll =>
    obtain ⟨⟨m, hm, ho⟩, hall⟩ := ht
    simp only [St.act] at hf
    rcases waitAll_cases s with ⟨h1, -⟩ | ⟨-, ⟨x, hx, h1⟩, -⟩ | ⟨-, -, e⟩
    · rw [h1] at hm; cases hm
    · obtain ⟨h2, h3⟩ := (gathered_new h hx).1 h1
      exact hall x hx h2 h3
    · rw [e] at hf
      have := hf.gone (St.gathered s.next m) (by
        simp only [St.clear, List.mem_append, List.mem_reverse]
        exact .inl (List.mem_map_of_mem hm))
      rw [gathered_id] at this
      exact dead (j := m.id) (by intro o' he; cases he) m hm rfl ho this
  | reap => exact ht

end Cobalt.Shared
