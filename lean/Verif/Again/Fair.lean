import Verif.Again.Quiet
/-! A race that is not decided has asked everybody before it waits. -/
namespace Cobalt.Comb

/-- While nothing is decided, whoever has not been asked will be. -/
def Fair (c : Cfg) (s : St) : Prop := s.index = none →
  (s.phase ≠ .before → ∀ i ∈ c.order, s.child i = .idle → i ∈ s.todo) ∧ (s.phase ≠ .starting → s.todo = [])

/-- What `Fair` is about is the same. -/
structure Alike (s t : St) : Prop where
  child : t.child = s.child
  todo : t.todo = s.todo
  phase : t.phase = s.phase
  index : t.index = s.index

theorem Alike.fair {c : Cfg} {s t : St} (h : Alike s t) (k : Fair c s) : Fair c t := by
  unfold Fair
  rw [h.child, h.todo, h.phase, h.index]
  exact k

theorem contEmit_alike (c : Cfg) (s : St) (k ct since : Nat) (d : Bool) : Alike s (s.contEmit c k .ext ct since d) := by
  unfold St.contEmit St.scanEmit
  split
  · exact ⟨rfl, rfl, rfl, rfl⟩
  · exact ⟨rfl, rfl, rfl, rfl⟩

theorem contIntr_alike (c : Cfg) (s : St) (k since : Nat) (d : Bool) : Alike s (s.contIntr c k .ext since d) := by
  unfold St.contIntr St.scanIntr
  split
  · exact ⟨rfl, rfl, rfl, rfl⟩
  · exact ⟨rfl, rfl, rfl, rfl⟩

theorem startNext_fair {c : Cfg} (hk : c.kind = .race) {s : St}
    (h : ∀ i ∈ c.order, s.child i = .idle → i ∈ s.todo) (hp : s.phase = .starting) : Fair c (s.startNext c) := by
  intro _
  unfold St.startNext
  cases ht : s.todo with
  | nil =>
    rw [ht] at h
    dsimp only
    rw [endStart_race hk]
    unfold St.endStart2
    split
    · exact ⟨fun _ i hi hx => absurd (h i hi hx) (by simp), fun _ => ht⟩
    · exact ⟨fun _ i hi hx => absurd (h i hi hx) (by simp), fun _ => ht⟩
  | cons j rest =>
    rw [ht] at h
    dsimp only
    refine ⟨fun _ i hi hx => ?_, fun hx => absurd hp hx⟩
    rw [upd_apply] at hx
    split at hx
    · simp at hx
    · rename_i hne
      rcases List.mem_cons.1 (h i hi hx) with rfl | hm
      · exact absurd rfl hne
      · exact hm

/-- Child, `todo` and `index` are the same. -/
structure Near (s t : St) : Prop where
  child : t.child = s.child
  todo : t.todo = s.todo
  index : t.index = s.index

theorem Near.fair {c : Cfg} {s t : St} (h : Near s t) (k : Fair c s) (hp : s.phase ≠ .before) (ht : s.todo = []) : Fair c t := by
  intro hi
  rw [h.index] at hi
  rw [h.child, h.todo]
  exact ⟨fun _ => (k hi).1 hp, fun _ => ht⟩

theorem contEmit_near (c : Cfg) (s : St) (k ct since : Nat) (d : Bool) : Near s (s.contEmit c k .startEnd ct since d) := by
  unfold St.contEmit St.scanEmit
  split
  · exact ⟨rfl, rfl, rfl⟩
  · simp only [Bool.false_eq_true, if_false, St.done, St.endStart2]
    split <;> exact ⟨rfl, rfl, rfl⟩

theorem contIntr_near (c : Cfg) (s : St) (k since : Nat) (d : Bool) : Near s (s.contIntr c k .startEnd since d) := by
  unfold St.contIntr St.scanIntr
  split
  · exact ⟨rfl, rfl, rfl⟩
  · simp only [Bool.false_eq_true, if_false, reduceCtorEq]
    exact contEmit_near c s 0 _ _ d

theorem Fair.step {c : Cfg} (hc : c.Ok) (hk : c.kind = .race) {g nc : Bool} {s : St} {es : List Ev} (h : All c g nc s es)
    (hE : ∀ i, (s.child i).ended = true → s.index ≠ none) (hq : Fair c s) {e : Ev} (hcan : s.can c e = true)
    (hx : ∀ i, e ≠ .txn i) (hy : ∀ i x d, e ≠ .thrown i x d) (hP : ∀ f ∈ s.stack, ∀ i, f.tag ≠ .co (.txn i))
    (hu : (s.step c e).ub = false) : Fair c (s.step c e) := by
  have hsim := step_sim h.inv h.ub hcan
  have hInv := h.inv
  have new : e.claims ≠ none → (s.step c e).index ≠ none := by
    intro hcl hi
    rcases h.step hc hcan with h1 | h1
    · rw [hu] at h1; simp at h1
    · rw [h1.hist.race hk] at hi
      unfold winner at hi
      rw [List.head?_eq_none_iff, List.filterMap_eq_nil_iff] at hi
      exact hcl (hi e (by simp))
  have nb : s.stack ≠ [] → s.phase ≠ .before := by
    intro hs hp
    have := (hInv.before hp).2.1
    unfold St.tags at this
    exact hs (List.map_eq_nil_iff.1 this)
  cases e with
  | begin =>
    have hp : s.phase = .before := by simpa [St.can] using hcan
    unfold St.step at hu ⊢
    rw [if_neg (by simp [h.ub, hcan])] at hu ⊢
    dsimp only at hu ⊢
    split
    · rename_i h1; rw [if_pos h1] at hu; simp at hu
    · exact startNext_fair hk (s := { s with phase := .starting, todo := c.order }) (fun i hi _ => hi) rfl
  | ready i o d => exact fun hi => absurd hi (new (by simp [Ev.claims]))
  | notReady i =>
    intro hi
    have hi' : s.index = none := by rw [← hsim.index]; exact hi
    have hs : s.stack ≠ [] := by intro hs; simp [St.can, hs] at hcan
    have h1 := hq hi'
    unfold St.step
    rw [if_neg (by simp [h.ub, hcan])]
    dsimp only
    refine ⟨fun hp j hj hx => ?_, h1.2⟩
    rw [upd_apply] at hx
    split at hx
    · simp at hx
    · exact h1.1 hp j hj hx
  | thrown i x d => exact absurd rfl (hy i x d)
  | fin i o => exact fun hi => absurd hi (new (by simp [Ev.claims]))
  | txn i => exact absurd rfl (hx i)
  | ret d =>
    intro hi
    have hi' : s.index = none := by rw [← hsim.index]; exact hi
    revert hi
    change Fair c _
    have hs : s.stack ≠ [] := by intro hs; simp [St.can, hs] at hcan
    unfold St.step at hu ⊢
    rw [if_neg (by simp [h.ub, hcan])] at hu ⊢
    dsimp only at hu ⊢
    split
    · exact hq
    · exact hq
    · rename_i k rest hst
      have htg : s.tags = .start k :: rest.map Frame.tag := by unfold St.tags; rw [hst]; rfl
      have hph : s.phase = .starting := by
        rw [htg] at hInv; exact hInv.phase_of rfl
      have hch : s.child k = .waiting := by
        rcases hInv.started k (by rw [htg]; simp) with h1 | h1 | h1
        · exact h1
        · exact absurd hi' (hE k (by rw [h1]; rfl))
        · exact absurd hi' (hE k (by rw [h1]; rfl))
      have hu0 : s.uses ≠ 0 := by
        obtain ⟨l, -, h2, h3⟩ := hInv.uses
        have : k ∈ l := (h2 k).2 (by rw [hch]; rfl)
        rw [← h3]
        intro h0
        rw [List.length_eq_zero_iff] at h0
        rw [h0] at this
        simp at this
      have key : Fair c (St.startNext c { s with stack := rest }) :=
        startNext_fair hk ((hq hi').1 (by rw [hph]; simp)) hph
      unfold St.afterStart
      simp only [hk, hu0, hch, reduceCtorEq, if_false, Bool.false_eq_true, ite_self]
      exact key
    · rename_i k co since rest hst
      split
      · exact hq
      · have hm : (.intr k co since : Frame) ∈ s.stack := by rw [hst]; simp
        cases co with
        | finish i b =>
          exfalso
          refine hE i ?_ hi'
          have := (hInv.running i).2 (by
            unfold St.tags; rw [hst]; simp [Frame.tag, Tag.fin?])
          rw [this]; rfl
        | txn i => exact absurd rfl (hP _ hm i)
        | startEnd =>
          refine Near.fair (s := s) ?_ hq (nb hs) (hInv.startEnd (List.mem_map.2 ⟨_, hm, rfl⟩))
          have := contIntr_near c { s with stack := rest } (k + 1) since d
          exact ⟨this.child, this.todo, this.index⟩
        | ext =>
          have := contIntr_alike c { s with stack := rest } (k + 1) since d
          exact Alike.fair (s := s) ⟨this.child, this.todo, this.phase, this.index⟩ hq
    · rename_i k co ct since rest hst
      split
      · exact hq
      · have hm : (.emit k co ct since : Frame) ∈ s.stack := by rw [hst]; simp
        cases co with
        | finish i b =>
          exfalso
          refine hE i ?_ hi'
          have := (hInv.running i).2 (by
            unfold St.tags; rw [hst]; simp [Frame.tag, Tag.fin?])
          rw [this]; rfl
        | txn i => exact absurd rfl (hP _ hm i)
        | startEnd =>
          refine Near.fair (s := s) ?_ hq (nb hs) (hInv.startEnd (List.mem_map.2 ⟨_, hm, rfl⟩))
          have := contEmit_near c { s with stack := rest } (k + 1) ct since d
          exact ⟨this.child, this.todo, this.index⟩
        | ext =>
          have := contEmit_alike c { s with stack := rest } (k + 1) ct since d
          exact Alike.fair (s := s) ⟨this.child, this.todo, this.phase, this.index⟩ hq
  | cancel ct =>
    unfold St.step
    rw [if_neg (by simp [h.ub, hcan])]
    exact (contEmit_alike c s 0 ct _ false).fair hq
  | interrupt =>
    unfold St.step
    rw [if_neg (by simp [h.ub, hcan])]
    exact (contIntr_alike c s 0 _ false).fair hq

theorem Fair.init (c : Cfg) : Fair c {} := by
  intro _; exact ⟨fun h => absurd rfl h, fun _ => rfl⟩

/-- An undecided race whose code has returned waits for everybody. -/
theorem Fair.waits {c : Cfg} {g nc : Bool} {s : St} {es : List Ev} (h : All c g nc s es) (hq : Fair c s)
    (hE : ∀ i, (s.child i).ended = true → s.index ≠ none) (hi : s.index = none) (hs : s.stack = []) (hp : s.phase ≠ .before)
    {i : Nat} (hm : i ∈ c.order) : s.child i = .waiting := by
  have hT : s.tags = [] := by unfold St.tags; rw [hs]; rfl
  have hInv := h.inv
  rw [hT] at hInv
  have hst : s.phase ≠ .starting := by
    intro hx; have := hInv.starts; rw [if_pos hx] at this; simp at this
  cases hc : s.child i with
  | idle =>
    have h1 := (hq hi).1 hp i hm hc
    rw [(hq hi).2 hst] at h1
    simp at h1
  | asking => have := (hInv.asking i).1 hc; simp at this
  | waiting => rfl
  | running => exact absurd hi (hE i (by rw [hc]; rfl))
  | finished => exact absurd hi (hE i (by rw [hc]; rfl))

/-- A decided race whose code has returned is over. -/
theorem Hushed.over {c : Cfg} {g nc : Bool} {s : St} {es : List Ev} (h : All c g nc s es) (hq : Hushed s)
    (hi : s.index ≠ none) (hs : s.stack = []) : s.over := by
  have hT : s.tags = [] := by unfold St.tags; rw [hs]; rfl
  have hInv := h.inv
  rw [hT] at hInv
  have hH := hq hi
  have hu : s.uses = 0 := by
    obtain ⟨l, -, h2, h3⟩ := hInv.uses
    have : l = [] := by
      rw [List.eq_nil_iff_forall_not_mem]
      intro j hj
      have h1 := (h2 j).1 hj
      cases hc : s.child j with
      | idle => rw [hc] at h1; simp [CS.active] at h1
      | asking => exact hH.1 j hc
      | waiting =>
        obtain ⟨_, _, _, _, h4, _⟩ := hH.2 j hc
        rw [hs] at h4; simp at h4
      | running => have := (hInv.running j).1 hc; simp at this
      | finished => rw [hc] at h1; simp [CS.active] at h1
    rw [← h3, this]; rfl
  cases hp : s.phase with
  | before =>
    cases hix : s.index with
    | none => exact absurd hix hi
    | some j => exact absurd ((hInv.before hp).2.2.2 j) (h.hist.idx j hix)
  | starting => have := hInv.starts; rw [if_pos hp] at this; simp at this
  | suspended => exact absurd hu (hInv.susp hp)
  | resumed => exact Or.inl hp
  | direct => exact Or.inr hp

end Cobalt.Comb
