import Verif.Shared.Lemmas

/-!
# The invariant holds
-/
namespace Cobalt.Shared
open Group (Out Res)

theorem ended_snoc (es : List Ev) (e : Ev) (j : Nat) :
    Ended (es ++ [e]) j ↔ Ended es j ∨ ∃ o, e = .complete j o := by
  unfold Ended
  constructor
  · rintro ⟨o, h⟩
    rcases List.mem_append.1 h with h | h
    · exact .inl ⟨o, h⟩
    · exact .inr ⟨o, (List.mem_singleton.1 h).symm⟩
  · rintro (⟨o, h⟩ | ⟨o, rfl⟩)
    · exact ⟨o, List.mem_append_left _ h⟩
    · exact ⟨o, by simp⟩

theorem ended_complete (es : List Ev) (id : Nat) (o : Out) (j : Nat) :
    Ended (es ++ [.complete id o]) j ↔ Ended es j ∨ j = id := by
  rw [ended_snoc]
  constructor
  · rintro (h | ⟨o', h⟩)
    · exact .inl h
    · cases h; exact .inr rfl
  · rintro (h | rfl)
    · exact .inl h
    · exact .inr ⟨o, rfl⟩

theorem added_snoc (es : List Ev) (e : Ev) (j : Nat) : Added (es ++ [e]) j ↔ Added es j ∨ e = .push j := by
  unfold Added
  rw [List.mem_append, List.mem_singleton]
  exact ⟨fun h => h.imp_right Eq.symm, fun h => h.imp_right Eq.symm⟩

theorem WF.congr {es es' : List Ev} {L : List Nat} {s : St} (h : WF es L s) (hE : ∀ j, Ended es' j ↔ Ended es j)
    (hA : ∀ j, Added es' j ↔ Added es j) : WF es' L s := by
  obtain ⟨a1, a2, a3, a4, a5, a6, a7, a8, a9, a10, a11, a12⟩ := h
  constructor
  all_goals try assumption
  · simpa only [hE] using a3
  · simpa only [hE] using a4
  · simpa only [hE, hA] using a5

/-- A wait begins. -/
theorem WF.begin {es : List Ev} {s : St} (h : WF es [] s) : WF es [s.next] { s with next := s.next + 1 } := by
  obtain ⟨a1, a2, a3, a4, a5, a6, a7, a8, a9, a10, a11, a12⟩ := h
  constructor
  all_goals dsimp only
  all_goals try assumption
  · grind
  · intro w r hr
    have := a8 w r hr
    have : w < s.next := this.1
    refine ⟨by omega, (a8 w r hr).2.1, ?_⟩
    rw [List.mem_singleton]; omega
  · intro w hw
    have : w < s.next := (a10 w hw).1
    refine ⟨by omega, ?_⟩
    rw [List.mem_singleton]; omega
  · intro w hw
    rw [List.mem_singleton] at hw; omega
  · intro w hw
    by_cases he : w = s.next
    · exact .inr (.inr (.inr (by rw [he]; exact List.mem_singleton.2 rfl)))
    · rcases a12 w (by omega) with h1 | h1 | h1 | h1
      · exact .inl h1
      · exact .inr (.inl h1)
      · exact .inr (.inr (.inl h1))
      · cases h1

/-- A wait ends without anything else. -/
theorem WF.ends {es : List Ev} {L : List Nat} {s : St} {w : Nat} (h : WF es (w :: L) s) (hw : w ∉ L)
    (hb : ∀ m ∈ s.members, m.aw ≠ some w) (r : Res) (u : Bool) : WF es L { s with log := (w, r) :: s.log, ub := u } := by
  obtain ⟨a1, a2, a3, a4, a5, a6, a7, a8, a9, a10, a11, a12⟩ := h
  constructor
  all_goals dsimp only
  all_goals try assumption
  · grind
  · grind
  · simp only [List.map_cons, List.nodup_cons]
    refine ⟨?_, a9⟩
    intro hm
    obtain ⟨⟨v, r⟩, h1, h2⟩ := List.mem_map.1 hm
    cases h2
    exact (a8 v r h1).2.2 List.mem_cons_self
  · grind
  · grind
  · intro v hv
    rcases a12 v hv with ⟨r', h1⟩ | h1 | h1 | h1
    · exact .inl ⟨r', List.mem_cons_of_mem _ h1⟩
    · exact .inr (.inl h1)
    · exact .inr (.inr (.inl h1))
    · rcases List.mem_cons.1 h1 with rfl | h1
      · exact .inl ⟨_, List.mem_cons_self⟩
      · exact .inr (.inr (.inr h1))

/-- Nobody waits with the number of the next wait. -/
theorem WF.fresh {es : List Ev} {L : List Nat} {s : St} (h : WF es L s) {w : Nat} (hw : s.next ≤ w) :
    ∀ m ∈ s.members, m.aw ≠ some w := by
  intro m hm he
  have := (h.aw m hm w he).2.1
  omega

theorem gathered_id (w : Nat) (m : Mem) : (St.gathered w m).id = m.id := by
  unfold St.gathered; repeat' split
  all_goals rfl

theorem gathered_out (w : Nat) (m : Mem) : (St.gathered w m).out = m.out := by
  unfold St.gathered; repeat' split
  all_goals rfl

theorem gathered_aw (w : Nat) (m : Mem) (v : Nat) :
    (St.gathered w m).aw = some v ↔ m.aw = some v ∨ (m.out = none ∧ m.aw = none ∧ v = w) := by
  unfold St.gathered
  split
  · rename_i h
    have : m.out ≠ none := by intro h'; rw [h'] at h; cases h
    grind
  · rename_i h
    have : m.out = none := by simpa using h
    split
    · rename_i w' hw'
      rw [hw']; simp
    · rename_i hw'
      rw [hw']; simp only [Option.some.injEq, reduceCtorEq, false_or, this, true_and]
      exact eq_comm

theorem WF.gathered {es : List Ev} {s : St} {w : Nat} (h : WF es [w] s) (hb : ∀ m ∈ s.members, m.aw ≠ some w) :
    WF es [w] { s with members := s.members.map (St.gathered w) } := by
  have f1 := gathered_id w
  have f2 := gathered_out w
  have f3 := gathered_aw w
  generalize St.gathered w = f at *
  obtain ⟨a1, a2, a3, a4, a5, a6, a7, a8, a9, a10, a11, a12⟩ := h
  constructor
  all_goals dsimp only
  all_goals try simp only [List.mem_map]
  all_goals try assumption
  · rw [map_id f1]; exact a1
  · grind
  · grind
  · intro id hid
    rcases a5 id hid with ⟨x, hx, rfl⟩ | ⟨g, hg, rfl⟩
    · exact .inl ⟨_, ⟨x, hx, rfl⟩, f1 x⟩
    · exact .inr ⟨g, hg, rfl⟩
  · rintro _ ⟨x, hx, rfl⟩ v hv
    rcases (f3 x v).1 hv with h1 | ⟨h1, h2, rfl⟩
    · rw [f2]; exact a6 x hx v h1
    · refine ⟨by rw [f2]; exact h1, a11 _ (by simp), ?_, ?_⟩
      · intro hk; exact (a10 _ hk).2 (by simp)
      · intro r hr; exact (a8 _ r hr).2.2 (by simp)
  · intro v ids hv
    obtain ⟨h1, h2, h3⟩ := a7 v ids hv
    refine ⟨by rw [map_id f1]; exact h1, h2, ?_⟩
    rintro _ ⟨x, hx, rfl⟩
    rw [f1, f3, ← h3 x hx]
    refine ⟨?_, .inl⟩
    rintro (h4 | ⟨-, -, rfl⟩)
    · exact h4
    · -- a race with this number would wait for a member
      exfalso
      obtain ⟨t, ht⟩ := h1
      cases ids with
      | nil => exact h2 rfl
      | cons i ids =>
        cases hl : s.members with
        | nil => rw [hl] at ht; cases ht
        | cons y ys =>
          rw [hl] at ht
          simp only [List.map_cons, List.cons_append, List.cons.injEq] at ht
          have hy : y ∈ s.members := by rw [hl]; exact List.mem_cons_self
          exact hb y hy ((h3 y hy).2 (by rw [← ht.1]; exact List.mem_cons_self))
  · intro v hv
    rcases a12 v hv with h1 | h1 | ⟨x, h1, h2⟩ | h1
    · exact .inl h1
    · exact .inr (.inl h1)
    · exact .inr (.inr (.inl ⟨f x, ⟨x, h1, rfl⟩, (f3 x v).2 (.inl h2)⟩))
    · exact .inr (.inr (.inr h1))

theorem WF.waitAll {es : List Ev} {s : St} (h : WF es [] s) : WF es [] s.waitAll ∧ s.waitAll.ub = s.ub := by
  have hb := h.fresh (Nat.le_refl s.next)
  have h1 := h.begin
  unfold St.waitAll
  dsimp only
  split
  · exact ⟨h1.ends (by simp) hb _ _, rfl⟩
  · have h2 := h1.gathered hb
    dsimp only at h2
    split
    · rename_i hbusy
      exact ⟨h2.weaken ((busy_iff _ _).1 hbusy), rfl⟩
    · rename_i hbusy
      refine ⟨h2.clear (by simp) ?_, rfl⟩
      intro v hv
      rw [List.mem_singleton] at hv
      subst hv
      exact (busy_false _ _).1 hbusy

theorem WF.reap {es : List Ev} {s : St} (h : WF es [] s) : WF es [] s.reap := by
  have hr : ∀ m ∈ s.members, St.ripe m = true → m.out ≠ none := by
    intro m _ hm ho
    simp [St.ripe, ho] at hm
  obtain ⟨a1, a2, a3, a4, a5, a6, a7, a8, a9, a10, a11, a12⟩ := h
  constructor
  all_goals dsimp only [St.reap]
  all_goals try simp only [List.mem_filter, List.mem_append, List.mem_reverse]
  all_goals try assumption
  · exact nodup_filter a1 _
  · rintro m ⟨hm, hnr⟩ g (⟨hg, hgr⟩ | hg) he
    · have := eq_of_id a1 hm hg he
      subst this
      rw [hgr] at hnr
      cases hnr
    · exact a2 m hm g hg he
  · exact fun m hm => a3 m hm.1
  · grind
  · intro id hid
    rcases a5 id hid with ⟨x, hx, rfl⟩ | ⟨g, hg, rfl⟩
    · by_cases hp : St.ripe x = true
      · exact .inr ⟨x, .inl ⟨hx, hp⟩, rfl⟩
      · exact .inl ⟨x, ⟨hx, by simpa using hp⟩, rfl⟩
    · exact .inr ⟨g, .inr hg, rfl⟩
  · exact fun m hm => a6 m hm.1
  · intro v ids hv
    obtain ⟨h1, h2, h3⟩ := a7 v ids hv
    refine ⟨prefix_filter h1 ?_, h2, fun m hm => h3 m hm.1⟩
    intro m hm hi
    have := (a6 m hm v ((h3 m hm).2 hi)).1
    have := hr m hm
    cases hp : St.ripe m <;> grind
  · intro v hv
    rcases a12 v hv with h1 | h1 | ⟨x, h1, h2⟩ | h1
    · exact .inl h1
    · exact .inr (.inl h1)
    · refine .inr (.inr (.inl ⟨x, ⟨h1, ?_⟩, h2⟩))
      have := (a6 x h1 v h2).1
      have := hr x h1
      cases hp : St.ripe x <;> grind
    · exact .inr (.inr (.inr h1))

theorem WF.push {es : List Ev} {s : St} (h : WF es [] s) {id : Nat} (h1 : ∀ m ∈ s.members, m.id ≠ id)
    (h2 : ∀ m ∈ s.gone, m.id ≠ id) :
    WF (es ++ [.push id]) [] { s with members := s.members ++ [{ id := id }] } := by
  have hne : ¬ Ended es id := by
    intro he
    rcases h.known id (.inl he) with ⟨m, hm, h3⟩ | ⟨m, hm, h3⟩
    · exact h1 m hm h3
    · exact h2 m hm h3
  have hE : ∀ j, Ended (es ++ [.push id]) j ↔ Ended es j := by
    intro j; rw [ended_snoc]; simp
  obtain ⟨a1, a2, a3, a4, a5, a6, a7, a8, a9, a10, a11, a12⟩ := h
  constructor
  all_goals dsimp only
  all_goals try simp only [hE]
  all_goals try simp only [List.mem_append, List.mem_singleton]
  all_goals try assumption
  · rw [List.map_append, List.nodup_append]
    refine ⟨a1, by simp, ?_⟩
    intro a ha b hb
    obtain ⟨m, hm, rfl⟩ := List.mem_map.1 ha
    simp only [List.map_cons, List.map_nil, List.mem_singleton] at hb
    rw [hb]
    exact h1 m hm
  · rintro m (hm | rfl) g hg
    · exact a2 m hm g hg
    · exact fun he => h2 g hg he.symm
  · rintro m (hm | rfl)
    · exact a3 m hm
    · simpa using hne
  · intro j hj
    rw [added_snoc] at hj
    have : (Ended es j ∨ Added es j) ∨ j = id := by
      rcases hj with h | h | h
      · exact .inl (.inl h)
      · exact .inl (.inr h)
      · cases h; exact .inr rfl
    rcases this with h | rfl
    · rcases a5 j h with ⟨x, hx, rfl⟩ | ⟨g, hg, rfl⟩
      · exact .inl ⟨x, .inl hx, rfl⟩
      · exact .inr ⟨g, hg, rfl⟩
    · exact .inl ⟨_, .inr rfl, rfl⟩
  · rintro m (hm | rfl) w hw
    · exact a6 m hm w hw
    · cases hw
  · intro v ids hv
    obtain ⟨b1, b2, b3⟩ := a7 v ids hv
    refine ⟨?_, b2, ?_⟩
    · rw [List.map_append]
      exact b1.trans (List.prefix_append _ _)
    · rintro m (hm | rfl)
      · exact b3 m hm
      · simp only [reduceCtorEq, false_iff]
        intro hi
        obtain ⟨m, hm, h3⟩ := List.mem_map.1 (b1.subset hi)
        exact h1 m hm h3
  · intro v hv
    rcases a12 v hv with h1 | h1 | ⟨x, h1, h2⟩ | h1
    · exact .inl h1
    · exact .inr (.inl h1)
    · exact .inr (.inr (.inl ⟨x, .inl h1, h2⟩))
    · exact .inr (.inr (.inr h1))

/-- A member ends that nobody waits for. -/
theorem WF.quiet {es : List Ev} {s : St} (h : WF es [] s) {m : Mem} (hm : m ∈ s.members) (hw : m.aw = none) (o : Out) :
    WF (es ++ [.complete m.id o]) []
      { s with members := s.members.map fun x => if x.id = m.id then { x with out := some o } else x } := by
  have hE : ∀ j, Ended (es ++ [.complete m.id o]) j ↔ Ended es j ∨ j = m.id := by
    intro j; rw [ended_complete]
  have hA : ∀ j, Added (es ++ [.complete m.id o]) j ↔ Added es j := by
    intro j; rw [added_snoc]; simp
  generalize hf : (fun x : Mem => if x.id = m.id then { x with out := some o } else x) = f
  have f1 : ∀ x, (f x).id = x.id := by subst hf; intro x; dsimp only; split <;> rfl
  have f2 : ∀ x, x.id = m.id → (f x).out = some o := by subst hf; intro x hx; simp [hx]
  have f3 : ∀ x, x.id ≠ m.id → f x = x := by subst hf; intro x hx; simp [hx]
  have f4 : ∀ x, (f x).aw = x.aw := by subst hf; intro x; dsimp only; split <;> rfl
  have hnd := h.nodup
  obtain ⟨a1, a2, a3, a4, a5, a6, a7, a8, a9, a10, a11, a12⟩ := h
  constructor
  all_goals dsimp only
  all_goals rw [hf] at *
  all_goals try simp only [List.mem_map]
  all_goals try simp only [hE, hA]
  all_goals try assumption
  · rw [map_id f1]; exact a1
  · grind
  · rintro _ ⟨x, hx, rfl⟩
    rw [f1]
    by_cases he : x.id = m.id
    · rw [f2 x he]; simp [he]
    · rw [f3 x he, a3 x hx]; simp [he]
  · intro g hg
    have := a2 m hm g hg
    rw [a4 g hg]
    grind
  · intro id hid
    have : (Ended es id ∨ Added es id) ∨ id = m.id := by grind
    rcases this with h | rfl
    · rcases a5 id h with ⟨x, hx, rfl⟩ | ⟨g, hg, rfl⟩
      · exact .inl ⟨_, ⟨x, hx, rfl⟩, f1 x⟩
      · exact .inr ⟨g, hg, rfl⟩
    · exact .inl ⟨_, ⟨m, hm, rfl⟩, f1 m⟩
  · rintro _ ⟨x, hx, rfl⟩ v hv
    rw [f4] at hv
    by_cases he : x.id = m.id
    · have := eq_of_id hnd hx hm he
      rw [this, hw] at hv
      cases hv
    · rw [f3 x he]; exact a6 x hx v hv
  · intro v ids hv
    obtain ⟨b1, b2, b3⟩ := a7 v ids hv
    refine ⟨by rw [map_id f1]; exact b1, b2, ?_⟩
    rintro _ ⟨x, hx, rfl⟩
    rw [f1, f4]
    exact b3 x hx
  · intro v hv
    rcases a12 v hv with h1 | h1 | ⟨x, h1, h2⟩ | h1
    · exact .inl h1
    · exact .inr (.inl h1)
    · exact .inr (.inr (.inl ⟨f x, ⟨x, h1, rfl⟩, by rw [f4]; exact h2⟩))
    · exact .inr (.inr (.inr h1))

theorem WF.complete {es : List Ev} {s : St} (h : WF es [] s) {m : Mem} (hm : m ∈ s.members) (o : Out) :
    s.complete m.id o = (match m.aw with
      | none => { s with members := s.members.map fun x => if x.id = m.id then { x with out := some o } else x }
      | some w => (s.take m.id (some o)).wake w m.id) ∧
    WF (es ++ [.complete m.id o]) [] (s.complete m.id o) ∧ (s.complete m.id o).ub = s.ub := by
  have hf : s.members.find? (·.id == m.id) = some m := by
    cases hf : s.members.find? (·.id == m.id) with
    | none =>
      have := List.find?_eq_none.1 hf m hm
      simp at this
    | some x =>
      have h1 := List.mem_of_find?_eq_some hf
      have h2 : x.id = m.id := by simpa using List.find?_some hf
      rw [eq_of_id h.nodup h1 hm h2]
  have he : s.complete m.id o = (match m.aw with
      | none => { s with members := s.members.map fun x => if x.id = m.id then { x with out := some o } else x }
      | some w => (s.take m.id (some o)).wake w m.id) := by
    unfold St.complete
    rw [hf]
    rfl
  refine ⟨he, ?_⟩
  rw [he]
  cases hw : m.aw with
  | none => exact ⟨h.quiet hm hw o, rfl⟩
  | some w =>
    refine h.wake hm hw ?_ ?_ (by simp)
    · intro j; rw [ended_complete]; simp
    · intro j; rw [added_snoc]; simp

/-- What a `wait_one` does. -/
theorem waitOne_cases {es : List Ev} {s : St} (h : WF es [] s) {order : List Nat}
    (hp : order.Perm (List.range s.members.length)) :
    (s.members = [] ∧ s.waitOne order = { s with next := s.next + 1, log := (s.next, .ok) :: s.log }) ∨
    (s.members ≠ [] ∧ (∀ m ∈ s.members, m.out = none ∧ m.aw = none) ∧ s.waitOne order = { s with
      next := s.next + 1, members := s.members.map fun m => { m with aw := some s.next }
      one := some (s.next, s.members.map Mem.id) }) ∨
    (∃ i m, order.find? (fun i => s.members[i]?.any Mem.hit) = some i ∧ s.members[i]? = some m ∧ m ∈ s.members ∧
      ((m.out ≠ none ∧ m.aw = none ∧ s.waitOne order = { s with next := s.next + 1 }.wonBy s.next i) ∨
        ∃ w, m.out = none ∧ m.aw = some w ∧
          s.waitOne order = { s with next := s.next + 1 }.clash s.next m.id w (order.head? != some i))) := by
  unfold St.waitOne
  dsimp only
  split
  · rename_i hm
    exact .inl ⟨hm, rfl⟩
  · rename_i hne
    split
    · rename_i hf
      refine .inr (.inl ⟨hne, ?_, rfl⟩)
      intro m hm
      obtain ⟨i, hi, hmi⟩ := List.getElem_of_mem hm
      have h1 := List.find?_eq_none.1 hf i (hp.symm.subset (List.mem_range.2 hi))
      rw [List.getElem?_eq_getElem hi, hmi] at h1
      simpa [Mem.hit] using h1
    · rename_i i hf
      refine .inr (.inr ⟨i, ?_⟩)
      have h1 := List.find?_some hf
      cases hm : s.members[i]? with
      | none => rw [hm] at h1; cases h1
      | some m =>
        rw [hm] at h1
        have h1 : m.hit = true := h1
        have hmem := List.mem_of_getElem? hm
        refine ⟨m, hf, rfl, hmem, ?_⟩
        dsimp only
        cases ho : m.out with
        | none =>
          cases hw : m.aw with
          | none => simp [Mem.hit, ho, hw] at h1
          | some w => exact .inr ⟨w, rfl, rfl, rfl⟩
        | some o =>
          cases hw : m.aw with
          | none => exact .inl ⟨by simp, rfl, rfl⟩
          | some w =>
            have := (h.aw m hmem w hw).1
            rw [ho] at this
            cases this

/-- `wait_one` begins to wait. -/
theorem WF.races {es : List Ev} {s : St} {w : Nat} (h : WF es [w] s) (hne : s.members ≠ [])
    (hm : ∀ m ∈ s.members, m.out = none ∧ m.aw = none) :
    WF es [] { s with members := s.members.map fun m => { m with aw := some w }
                      one := some (w, s.members.map Mem.id) } := by
  obtain ⟨a1, a2, a3, a4, a5, a6, a7, a8, a9, a10, a11, a12⟩ := h
  have f1 : ∀ m : Mem, ({ m with aw := some w } : Mem).id = m.id := fun _ => rfl
  constructor
  all_goals dsimp only
  all_goals try simp only [List.mem_map]
  · rw [map_id f1]; exact a1
  · rintro _ ⟨x, hx, rfl⟩; exact a2 x hx
  · rintro _ ⟨x, hx, rfl⟩; exact a3 x hx
  · exact a4
  · intro id hid
    rcases a5 id hid with ⟨x, hx, rfl⟩ | ⟨g, hg, rfl⟩
    · exact .inl ⟨_, ⟨x, hx, rfl⟩, rfl⟩
    · exact .inr ⟨g, hg, rfl⟩
  · rintro _ ⟨x, hx, rfl⟩ v hv
    cases hv
    refine ⟨(hm x hx).1, a11 w (by simp), ?_, ?_⟩
    · intro hk; exact (a10 _ hk).2 (by simp)
    · intro r hr; exact (a8 _ r hr).2.2 (by simp)
  · intro v ids hv
    cases hv
    rw [map_id f1]
    refine ⟨List.prefix_rfl, by simpa using hne, ?_⟩
    rintro _ ⟨x, hx, rfl⟩
    simp only [true_iff]
    exact List.mem_map_of_mem hx
  · intro v r hr
    exact ⟨(a8 v r hr).1, (a8 v r hr).2.1, by simp⟩
  · exact a9
  · intro v hv
    exact ⟨(a10 v hv).1, by simp⟩
  · simp
  · intro v hv
    rcases a12 v hv with h1 | h1 | ⟨x, h1, h2⟩ | h1
    · exact .inl h1
    · exact .inr (.inl h1)
    · rw [(hm x h1).2] at h2; cases h2
    · rw [List.mem_singleton] at h1
      subst h1
      obtain ⟨x, hx⟩ := List.exists_mem_of_ne_nil _ hne
      exact .inr (.inr (.inl ⟨_, ⟨x, hx, rfl⟩, rfl⟩))

/-- A `wait_one` that comes to a member another wait waits for. -/
theorem WF.clash {es : List Ev} {s : St} {w : Nat} (h : WF es [w] s) (hb : ∀ m ∈ s.members, m.aw ≠ some w) {m : Mem}
    (hm : m ∈ s.members) {w' : Nat} (hw : m.aw = some w') (own : Bool) : WF es [] (s.clash w m.id w' own) := by
  have ho := (h.aw m hm w' hw).1
  obtain ⟨h1, -⟩ := h.wake (es' := es) (o := none) hm hw (by simp) (by simp)
    (by intro v hv; rw [List.mem_singleton] at hv; subst hv; exact hb)
  refine h1.ends (by simp) ?_ _ _
  -- nobody begins to wait
  intro x hx
  have key : ∀ x ∈ ((s.take m.id none).wake w' m.id).members, x.aw ≠ some w := by
    have ht : ∀ x ∈ (s.take m.id none).members, x.aw ≠ some w := by
      intro x hx
      rcases take_mem hx with ⟨-, h2, -⟩ | ⟨-, h2⟩
      · rw [h2]; simp
      · exact hb x h2
    intro x hx
    unfold St.wake at hx
    split at hx
    · split at hx
      · unfold St.wonBy at hx
        split at hx
        · exact ht x hx
        · split at hx
          · simp only [List.mem_map] at hx
            obtain ⟨z, ⟨y, hy, rfl⟩, rfl⟩ := hx
            intro h3
            have h4 := ((free_aw w' _ w).1 h3).1
            have h5 := ht y hy
            split at h4 <;> exact h5 h4
          · obtain ⟨y, hy, rfl⟩ := List.mem_map.1 hx
            intro h3
            exact ht y (List.mem_of_mem_eraseIdx hy) ((free_aw w' _ w).1 h3).1
      · split at hx
        · exact ht x hx
        · cases hx
    · split at hx
      · exact ht x hx
      · cases hx
  exact key x hx

theorem WF.waitOne {es : List Ev} {s : St} (h : WF es [] s) {order : List Nat}
    (hp : order.Perm (List.range s.members.length)) : WF es [] (s.waitOne order) := by
  have hb := h.fresh (Nat.le_refl s.next)
  have h1 := h.begin
  rcases waitOne_cases h hp with ⟨-, e⟩ | ⟨hne, hm, e⟩ | ⟨i, m, -, hm, hmem, ⟨ho, hw, e⟩ | ⟨w, ho, hw, e⟩⟩
  · rw [e]
    exact h1.ends (by simp) hb _ _
  · rw [e]
    exact h1.races hne hm
  · rw [e]
    have hone : ∀ v ids, s.one = some (v, ids) → v ≠ s.next ∧ m.id ∉ ids := by
      intro v ids hv
      obtain ⟨b1, b2, b3⟩ := h.one v ids hv
      refine ⟨?_, fun hi => ?_⟩
      · rintro rfl
        cases ids with
        | nil => exact b2 rfl
        | cons i ids =>
          obtain ⟨x, hx, h3⟩ := List.mem_map.1 (b1.subset (List.mem_cons_self (a := i)))
          exact hb x hx ((b3 x hx).2 (by rw [h3]; exact List.mem_cons_self))
      · have := (b3 m hmem).2 hi
        rw [hw] at this
        cases this
    rcases wonBy_cases { s with next := s.next + 1 } s.next i hm h1.nodup with ⟨x, -, h2⟩ | ⟨-, h2⟩
    · rw [h2]
      exact h1.keep (by simp) _ _ fun v ids hv => (hone v ids hv).1
    · rw [h2]
      exact h1.drop (by simp) _ hmem hone (by simp [hw])
  · rw [e]
    exact h1.clash hb hmem hw _

theorem WF.act {es : List Ev} {s : St} (h : WF es [] s) {e : Ev} (hc : s.can e = true) :
    WF (es ++ [e]) [] (s.act e) := by
  cases e with
  | push id =>
    simp only [St.can, Bool.and_eq_true, Bool.not_eq_true', List.any_eq_false, beq_iff_eq] at hc
    exact h.push hc.1 hc.2
  | complete id o =>
    simp only [St.can, List.any_eq_true, Bool.and_eq_true, beq_iff_eq] at hc
    obtain ⟨m, hm, rfl, -⟩ := hc
    exact (h.complete hm o).2.1
  | waitOne order =>
    refine (h.waitOne (List.isPerm_iff.1 hc)).congr ?_ ?_
    · intro j; rw [ended_snoc]; simp
    · intro j; rw [added_snoc]; simp
  | waitAll =>
    refine h.waitAll.1.congr ?_ ?_
    · intro j; rw [ended_snoc]; simp
    · intro j; rw [added_snoc]; simp
  | reap =>
    refine h.reap.congr ?_ ?_
    · intro j; rw [ended_snoc]; simp
    · intro j; rw [added_snoc]; simp

theorem WF.init : WF [] [] ({} : St) := by
  constructor <;> simp [Ended, Added]

theorem run_snoc (es : List Ev) (e : Ev) : St.run (es ++ [e]) = (St.run es).step e := by
  simp [St.run, St.steps]

theorem run_append (es fs : List Ev) : St.run (es ++ fs) = (St.run es).steps fs := by
  simp [St.run, St.steps]

theorem legal_append {s : St} {es fs : List Ev} : Legal s (es ++ fs) ↔ Legal s es ∧ Legal (s.steps es) fs := by
  induction es generalizing s with
  | nil => simp [Legal, St.steps]
  | cons e es ih =>
    simp only [List.cons_append, Legal, ih, St.steps, List.foldl_cons, and_assoc]

theorem legal_snoc {es : List Ev} {e : Ev} (h : Legal {} (es ++ [e])) : Legal {} es ∧ (St.run es).can e = true := by
  obtain ⟨h1, h2⟩ := legal_append.1 h
  exact ⟨h1, h2.1⟩

theorem steps_ub {s : St} (h : s.ub = true) (es : List Ev) : s.steps es = s := by
  induction es with
  | nil => rfl
  | cons e es ih =>
    have : s.step e = s := by simp [St.step, h]
    simp only [St.steps, List.foldl_cons, this]
    exact ih

theorem snoc_ind {P : List Ev → Prop} (h0 : P []) (h1 : ∀ es e, P es → P (es ++ [e])) (es : List Ev) : P es := by
  have : ∀ l : List Ev, P l.reverse := by
    intro l
    induction l with
    | nil => exact h0
    | cons e l ih => rw [List.reverse_cons]; exact h1 _ e ih
  have := this es.reverse
  rwa [List.reverse_reverse] at this

/-- Up to where it is defined. -/
theorem reach {es : List Ev} (hl : Legal {} es) :
    ∃ p q, es = p ++ q ∧ St.run es = St.run p ∧ WF p [] (St.run p) ∧ (q = [] ∨ (St.run es).ub = true) := by
  induction es using snoc_ind with
  | h0 => exact ⟨[], [], rfl, rfl, WF.init, .inl rfl⟩
  | h1 es e ih =>
    obtain ⟨h1, hc⟩ := legal_snoc hl
    obtain ⟨p, q, he, hr, hw, hq⟩ := ih h1
    by_cases hu : (St.run es).ub = true
    · refine ⟨p, q ++ [e], by rw [he, List.append_assoc], ?_, hw, .inr ?_⟩
      · rw [run_snoc, ← hr]; simp [St.step, hu]
      · rw [run_snoc]; simp [St.step, hu]
    · have hq := hq.resolve_right hu
      subst hq
      rw [List.append_nil] at he
      subst he
      refine ⟨es ++ [e], [], by simp, rfl, ?_, .inl rfl⟩
      rw [run_snoc]
      have hu' : (St.run es).ub = false := by simpa using hu
      simp only [St.step, hu', hc, Bool.not_true, Bool.or_self, Bool.false_eq_true, if_false]
      exact hw.act hc

theorem WF.run {es : List Ev} (hl : Legal {} es) (hu : (St.run es).ub = false) : WF es [] (St.run es) := by
  obtain ⟨p, q, he, hr, hw, hq⟩ := reach hl
  rw [hu] at hq
  have hq : q = [] := by simpa using hq
  subst hq
  rw [List.append_nil] at he
  subst he
  exact hw

end Cobalt.Shared
