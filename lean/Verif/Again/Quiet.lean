import Verif.Comb.LoopsStep
import Verif.Again.Model
/-! A race all of whose awaitables can be interrupted: once it is decided, and `done()` of
a frame that has destroyed itself says yes, nobody is asked any more, and those that wait
are interrupted before anything else happens. -/
namespace Cobalt.Comb

/-- Nobody is asked, and everybody who waits will be interrupted next. -/
def Hush (s : St) : Prop := (∀ j, s.child j ≠ .asking) ∧
  ∀ j, s.child j = .waiting → ∃ n co since rest, s.stack = .intr n co since :: rest ∧ n ≤ j

theorem Hush.none {s : St} (h : ∀ j, s.child j ≠ .asking) (k : ∀ j, s.child j ≠ .waiting) : Hush s :=
  ⟨h, fun j hj => absurd hj (k j)⟩

theorem endStart_race {c : Cfg} (hk : c.kind = .race) (s : St) : s.endStart c = s.endStart2 := by
  unfold St.endStart
  rw [if_neg (by simp [hk])]

theorem endStart2_child (s : St) : s.endStart2.child = s.child := by
  unfold St.endStart2; split <;> rfl

theorem finish_child (s : St) (i : Nat) : (s.finish i).child = upd s.child i .finished := by
  unfold St.finish; dsimp only; split <;> rfl

/-- Starting does not go on. -/
theorem afterStart_hush {c : Cfg} (hk : c.kind = .race) {s : St} {i : Nat} (h : Inv c s (.loop :: s.tags))
    (ht : s.tags = []) (hw : ∀ j, s.child j ≠ .waiting) (hf : s.child i = .finished) :
    (s.afterStart c i true).child = s.child := by
  rw [ht] at h
  have ha : ∀ j, s.child j ≠ .asking := fun j hj => by
    have := (h.asking j).1 hj
    simp at this
  have hr : ∀ j, s.child j ≠ .running := fun j hj => by
    have := (h.running j).1 hj
    simp [Tag.fin?] at this
  have hu : s.uses = 0 := by
    obtain ⟨l, -, h2, h3⟩ := h.uses
    have : l = [] := by
      rw [List.eq_nil_iff_forall_not_mem]
      intro j hj
      have := (h2 j).1 hj
      cases hc : s.child j <;> simp [hc, CS.active] at this
      · exact ha j hc
      · exact hw j hc
      · exact hr j hc
    rw [← h3, this]; rfl
  unfold St.afterStart
  simp only [hk]
  simp only [hu, hf, if_true, ite_self, endStart_race hk]
  split
  · rfl
  · rw [endStart2_child]

theorem done_hush {c : Cfg} (hk : c.kind = .race) {s : St} {co : Cont} (h : Inv c s (.co co :: s.tags))
    (hb : Bot (.co co :: s.tags)) (ha : ∀ j, s.child j ≠ .asking) (hw : ∀ j, s.child j ≠ .waiting) :
    Hush (s.done c co true) := by
  unfold St.done
  split
  · rename_i i b
    have h' := h.finish
    have e := finish_child s i
    have ha' : ∀ j, (s.finish i).child j ≠ .asking := by
      intro j; rw [e, upd_apply]; split
      · simp
      · exact ha j
    have hw' : ∀ j, (s.finish i).child j ≠ .waiting := by
      intro j; rw [e, upd_apply]; split
      · simp
      · exact hw j
    dsimp only
    split
    · rename_i hx
      rw [if_pos hx] at h'
      subst hx
      have ht : s.tags = [] := hb.1 rfl
      rw [← finish_tags s i] at h'
      have := afterStart_hush (i := i) hk h' (by rw [finish_tags, ht]) hw' (by rw [e]; simp)
      exact Hush.none (by rw [this]; exact ha') (by rw [this]; exact hw')
    · exact Hush.none ha' hw'
  · exact Hush.none ha hw
  · exact Hush.none (by rw [endStart2_child]; exact ha) (by rw [endStart2_child]; exact hw)
  · exact Hush.none ha hw

theorem contEmit_hush {c : Cfg} (hk : c.kind = .race) {s : St} {co : Cont} (h : Inv c s (.co co :: s.tags))
    (hb : Bot (.co co :: s.tags)) (ha : ∀ j, s.child j ≠ .asking) (hw : ∀ j, s.child j ≠ .waiting)
    (k ct since : Nat) : Hush (s.contEmit c k co ct since true) := by
  obtain ⟨e1, e2, e3, e4, e5, e6⟩ := scanEmit_tags (c := c) (s := s) (k := k) (co := co) (ct := ct) (since := since)
  have h' := h.congr e2 e3 e4 e5 e6
  have hn : (St.scanEmit c s k co ct since).2 = false := by
    unfold St.scanEmit
    split
    · rename_i j hj
      have := (next_some hj).2.2.1
      simp only [Bool.and_eq_true, beq_iff_eq] at this
      exact absurd this.2 (hw j)
    · rfl
  unfold St.contEmit
  dsimp only
  rw [if_neg (by simp [hn])]
  simp only [hn, Bool.false_eq_true, if_false, List.nil_append] at e1
  refine done_hush hk (by rw [e1]; exact h') (by rw [e1]; exact hb) ?_ ?_
  · rw [e2]; exact ha
  · rw [e2]; exact hw

theorem contIntr_hush {c : Cfg} (hk : c.kind = .race) (hi : ∀ j, c.intr j = true) {s : St} {co : Cont}
    (h : Inv c s (.co co :: s.tags)) (hb : Bot (.co co :: s.tags)) (ha : ∀ j, s.child j ≠ .asking) {k : Nat}
    (hw : ∀ j, s.child j = .waiting → k ≤ j ∧ j < c.n ∧ s.working j = true) (since : Nat) :
    Hush (s.contIntr c k co since true) := by
  obtain ⟨e1, e2, e3, e4, e5, e6⟩ := scanIntr_tags (c := c) (s := s) (k := k) (co := co) (since := since)
  have h' := h.congr e2 e3 e4 e5 e6
  unfold St.contIntr
  dsimp only
  cases hn : St.next c.n k (s.hit c) with
  | some j =>
    have h2 : St.scanIntr c s k co since =
      ({ s with intd := j :: s.intd, stack := .intr j co since :: s.stack }, true) := by
      unfold St.scanIntr; rw [hn]
    rw [h2, if_pos rfl]
    refine ⟨ha, fun x hx => ⟨j, co, since, s.stack, rfl, ?_⟩⟩
    obtain ⟨w1, w2, w3⟩ := hw x hx
    apply Nat.le_of_not_lt
    intro hlt
    have := (next_some hn).2.2.2 x w1 hlt
    simp [St.hit, hk, hi, w3] at this
  | none =>
    have h2 : St.scanIntr c s k co since = (s, false) := by
      unfold St.scanIntr; rw [hn]
    rw [h2, if_neg (by simp)]
    have hw' : ∀ j, s.child j ≠ .waiting := by
      intro x hx
      obtain ⟨w1, w2, w3⟩ := hw x hx
      have := next_none hn x w1 w2
      simp [St.hit, hk, hi, w3] at this
    split
    · exact Hush.none ha hw'
    · exact contEmit_hush hk h hb ha hw' _ _ _

/-- What a race of sources does once it is decided. -/
def Hushed (s : St) : Prop := s.index ≠ none → Hush s

/-- The moves a race of sources sees, with `done()` saying yes. -/
def Ev.tame (s : St) : Ev → Prop
  | .ready _ _ d => d = true
  | .ret d => d = true ∧ ∀ i co since rest, s.stack = .intr i co since :: rest → s.child i ≠ .waiting
  | .thrown .. | .txn _ => False
  | .cancel _ | .interrupt => ∀ i co since rest, s.stack ≠ .intr i co since :: rest
  | .fin .. => ∀ j, s.child j ≠ .asking
  | .begin | .notReady _ => True

theorem complete_hush {c : Cfg} (hk : c.kind = .race) (hi : ∀ j, c.intr j = true) {s : St} {i : Nat} {o : Out} {b : Bool}
    (h : Inv c { s with child := upd s.child i .running } (.co (.finish i b) :: s.tags))
    (hb : Bot (.co (.finish i b) :: s.tags)) (ha : ∀ j, j ≠ i → s.child j ≠ .asking)
    (hw : ∀ j, s.child j = .waiting → j < c.n ∧ s.working j = true) : Hush (s.complete c i o b true) := by
  unfold St.complete
  simp only [hk]
  have h1 := raceReady_frame c { s with child := upd s.child i .running } i o
  have h2 := raceSuspended_frame c { s with child := upd s.child i .running } i o
  dsimp only at h1 h2
  obtain ⟨t, ht, t1, t2, t3, t4, t5, t6, t7⟩ : ∃ t : St, (if b = true then St.raceReady c { s with child := upd s.child i .running } i o
      else St.raceSuspended c { s with child := upd s.child i .running } i o) = t ∧
      t.child = upd s.child i .running ∧ t.uses = s.uses ∧ t.phase = s.phase ∧ t.todo = s.todo ∧ t.resumes = s.resumes ∧
      t.stack = s.stack ∧ t.working = s.working := by
    refine ⟨_, rfl, ?_⟩
    split
    · exact ⟨h1.1, h1.2.1, h1.2.2.1, h1.2.2.2.1, h1.2.2.2.2.1, h1.2.2.2.2.2.1, h1.2.2.2.2.2.2.2.2.1⟩
    · exact ⟨h2.1, h2.2.1, h2.2.2.1, h2.2.2.2.1, h2.2.2.2.2.1, h2.2.2.2.2.2.1, h2.2.2.2.2.2.2.2.2.1⟩
  rw [ht]
  have et : St.tags { t with sig := upd t.sig i false } = s.tags := by unfold St.tags; dsimp only; rw [t6]
  refine contIntr_hush hk hi ?_ ?_ ?_ ?_ _
  · rw [et]; exact h.congr t1 t2 t3 t4 t5
  · rw [et]; exact hb
  · intro j hj
    dsimp only at hj
    rw [t1, upd_apply] at hj
    split at hj
    · simp at hj
    · rename_i hne; exact ha j hne hj
  · intro j hj
    dsimp only at hj ⊢
    rw [t1, upd_apply] at hj
    split at hj
    · simp at hj
    · rw [t7]; exact ⟨Nat.zero_le _, hw j hj⟩

theorem Hushed.step {c : Cfg} (hk : c.kind = .race) (hi : ∀ j, c.intr j = true) {g nc : Bool} {s : St}
    {es : List Ev} (h : All c g nc s es) (hq : Hushed s) {e : Ev} (hcan : s.can c e = true) (ht : e.tame s)
    (hu : (s.step c e).ub = false) : Hushed (s.step c e) := by
  have hsim := step_sim h.inv h.ub hcan
  have hInv := h.inv
  have hBot := h.bot
  have hw := h.loops.working
  have hlt := h.loops.lt
  -- nobody waits if no interruption is going on
  have quiet : s.index ≠ none → (∀ i co since rest, s.stack ≠ .intr i co since :: rest) → ∀ j, s.child j ≠ .waiting := by
    intro hx hs j hj
    obtain ⟨n, co, since, rest, h1, -⟩ := (hq hx).2 j hj
    exact hs _ _ _ _ h1
  cases e with
  | begin =>
    intro hx
    rw [hsim.index] at hx
    have hp : s.phase = .before := by simpa [St.can] using hcan
    have h4 := (hInv.before hp).2.2.2
    cases hix : s.index with
    | none => exact absurd hix hx
    | some i => exact absurd (h4 i) (h.hist.idx i hix)
  | ready i o d =>
    intro _
    simp only [Ev.tame] at ht
    subst ht
    have hh : s.stack.head? = some (.asking i) := by simpa [St.can] using hcan
    have htg := tags_of_head hh
    rw [htg] at hInv hBot
    have e1 : s.step c (.ready i o true) = St.complete c { s with stack := s.stack.tail } i o true true := by
      unfold St.step; rw [if_neg (by simp [h.ub, hcan])]
    rw [e1]
    have hT : s.stack.tail.map Frame.tag = [] := hBot.1 rfl
    have ha : ∀ j, j ≠ i → s.child j ≠ .asking := by
      intro j hj hc
      have := (hInv.asking j).1 hc
      rw [hT] at this
      simp [Frame.tag] at this
      exact hj this
    refine complete_hush hk hi ?_ ?_ ha (fun j hj => ⟨hlt j hj, hw j hj⟩)
    · exact Inv.toRunning (Or.inr (Or.inl ⟨rfl, hInv.congr rfl rfl rfl rfl rfl⟩))
    · refine ⟨fun _ => hT, ?_⟩
      show Bot (s.stack.tail.map Frame.tag)
      rw [hT]; trivial
  | notReady i =>
    intro hx
    rw [hsim.index] at hx
    have hh : s.stack.head? = some (.asking i) := by simpa [St.can] using hcan
    have htg := tags_of_head hh
    have : s.child i = .asking := (hInv.asking i).2 (by rw [htg]; simp [Frame.tag])
    exact absurd this ((hq hx).1 i)
  | thrown i x d => exact ht.elim
  | fin i o =>
    intro _
    simp only [St.can, Bool.and_eq_true, beq_iff_eq] at hcan
    have e1 : s.step c (.fin i o) = s.complete c i o false false := by
      unfold St.step; rw [if_neg (by simp [h.ub, St.can, hcan])]
    have e3 : s.complete c i o false false = s.complete c i o false true := by
      unfold St.complete
      simp only [hk]
      rfl
    rw [e1, e3]
    refine complete_hush hk hi (Inv.toRunning (Or.inl ⟨rfl, hcan.1, hInv⟩)) ⟨by simp [Tag.isStart], hBot⟩
      (fun j _ => ?_) (fun j hj => ⟨hlt j hj, hw j hj⟩)
    exact ht j
  | txn i => exact ht.elim
  | ret d =>
    intro hx
    rw [hsim.index] at hx
    have hH := hq hx
    obtain ⟨rfl, ht⟩ := ht
    have hs : ∃ f rest, s.stack = f :: rest := by
      cases hst : s.stack with
      | nil => simp [St.can, hst] at hcan
      | cons f rest => exact ⟨f, rest, rfl⟩
    obtain ⟨f, rest, hst⟩ := hs
    have htg : s.tags = f.tag :: rest.map Frame.tag := by simp [St.tags, hst]
    rw [htg] at hInv hBot
    unfold St.step at hu ⊢
    rw [if_neg (by simp [h.ub, hcan])] at hu ⊢
    simp only [hst] at hu ⊢
    cases f with
    | asking k => simp [St.can, hst] at hcan
    | starting k =>
      dsimp only at hu ⊢
      have hT : rest.map Frame.tag = [] := hBot.1 rfl
      have hw' := quiet hx (by rw [hst]; simp)
      have hf : s.child k = .finished := by
        rcases hInv.started k (by simp [Frame.tag]) with h1 | h1 | h1
        · exact absurd h1 (hw' k)
        · have := (hInv.running k).1 h1
          simp [hT, Frame.tag, Tag.fin?] at this
        · exact h1
      have hl : Inv c { s with stack := rest } (.loop :: St.tags { s with stack := rest }) := by
        have hpp := hInv.phase_of rfl
        show Inv c _ (.loop :: rest.map Frame.tag)
        rw [show Frame.tag (.starting k) = .start k from rfl] at hInv
        cases hInv
        simp only [List.countP_cons, fin_start, Tag.isStart, List.mem_cons, reduceCtorEq, false_or,
          Tag.start.injEq] at *
        constructor <;> (try simp only [List.countP_cons, fin_loop, Tag.isStart, List.mem_cons, reduceCtorEq,
          false_or]) <;> first | assumption | grind
      have := afterStart_hush hk hl hT hw' hf
      exact Hush.none (by rw [this]; exact hH.1) (by rw [this]; exact hw')
    | intr k co since =>
      dsimp only at hu ⊢
      split at hu
      · simp at hu
      · rename_i hne
        rw [if_neg hne]
        refine contIntr_hush (s := { s with stack := rest }) hk hi (hInv.congr rfl rfl rfl rfl rfl) hBot hH.1 ?_ _
        intro j hj
        obtain ⟨n, co', since', rest', h1, h2⟩ := hH.2 j hj
        rw [hst] at h1
        simp only [List.cons.injEq, Frame.intr.injEq] at h1
        obtain ⟨⟨rfl, -, -⟩, -⟩ := h1
        have : j ≠ k := by rintro rfl; exact ht _ _ _ _ hst hj
        exact ⟨by omega, hlt j hj, hw j hj⟩
    | emit k co ct since =>
      dsimp only at hu ⊢
      split at hu
      · simp at hu
      · rename_i hne
        rw [if_neg hne]
        exact contEmit_hush (s := { s with stack := rest }) hk (hInv.congr rfl rfl rfl rfl rfl) hBot hH.1 (quiet hx (by rw [hst]; simp)) _ _ _
  | cancel ct =>
    intro hx
    rw [hsim.index] at hx
    have e1 : s.step c (.cancel ct) = s.contEmit c 0 .ext ct s.sent.length true := by
      unfold St.step; rw [if_neg (by simp [h.ub, hcan])]
      rfl
    have hp : s.phase ≠ .before := by
      simp only [St.can, beq_iff_eq] at hcan; rw [hcan]; simp
    rw [e1]
    refine contEmit_hush hk (hInv.push hp (Or.inl rfl)) ⟨by simp [Tag.isStart], hBot⟩ (hq hx).1 (quiet hx ht) _ _ _
  | interrupt =>
    intro hx
    rw [hsim.index] at hx
    have e1 : s.step c .interrupt = s.contIntr c 0 .ext s.intd.length true := by
      unfold St.step; rw [if_neg (by simp [h.ub, hcan])]
      rfl
    have hp : s.phase ≠ .before := by
      simp only [St.can, Bool.or_eq_true, beq_iff_eq] at hcan
      rcases hcan with h | h <;> rw [h] <;> simp
    rw [e1]
    refine contIntr_hush hk hi (hInv.push hp (Or.inl rfl)) ⟨by simp [Tag.isStart], hBot⟩ (hq hx).1 ?_ _
    exact fun j hj => absurd hj (quiet hx ht j)

/-- Nothing happens while somebody is asked. -/
def Lone (s : St) : Prop := ∀ j, s.child j = .asking → s.stack.head? = some (.asking j)

theorem Lone.of_tags {c : Cfg} {s : St} (h : Inv c s s.tags) {x : Tag} {T : List Tag}
    (ht : s.tags = T ∨ s.tags = x :: T) (hn : ∀ j, Tag.ask j ∉ T) : Lone s := by
  intro j hj
  have := (h.asking j).1 hj
  rcases ht with ht | ht
  · rw [ht] at this; exact absurd this (hn j)
  · have h1 := this
    rw [ht] at h1
    rcases List.mem_cons.1 h1 with h2 | h2
    · unfold St.tags at ht
      cases hs : s.stack with
      | nil => simp [hs] at ht
      | cons f rest =>
        rw [hs] at ht
        simp only [List.map_cons, List.cons.injEq] at ht
        rw [← h2] at ht
        cases f <;> simp [Frame.tag] at ht
        rw [ht.1]; rfl
    · exact absurd h2 (hn j)

theorem Lone.step {c : Cfg} (hc : c.Ok) {g nc : Bool} {s : St} {es : List Ev} (h : All c g nc s es) (hl : Lone s)
    {e : Ev} (hcan : s.can c e = true)
    (ht : (∃ i o d, e = .ready i o d) ∨ (∃ i, e = .notReady i) ∨ ∀ j, s.child j ≠ .asking)
    (hu : (s.step c e).ub = false) : Lone (s.step c e) := by
  have hInv' := (h.inv.step hc e).resolve_left (by rw [hu]; simp)
  have hno : ∀ {T : List Tag}, (∀ j, s.child j ≠ .asking) → (∀ t ∈ T, t ∈ s.tags) → ∀ j, Tag.ask j ∉ T :=
    fun h1 h2 j hj => h1 j ((h.inv.asking j).2 (h2 _ hj))
  rcases step_shape c s e h.ub hcan with ⟨i, rfl⟩ | h1 | ⟨cur, s₀, h1, -, -, h2⟩
  · have hh : s.stack.head? = some (.asking i) := by simpa [St.can] using hcan
    have htg := tags_of_head hh
    have hBot := h.bot
    rw [htg] at hBot
    have hT : s.stack.tail.map Frame.tag = [] := hBot.1 rfl
    refine Lone.of_tags hInv' (x := .start i) (T := []) (Or.inr ?_) (by simp)
    unfold St.step; rw [if_neg (by simp [h.ub, hcan])]
    simp [St.tags, Frame.tag, hT]
  · rw [hu] at h1; simp at h1
  · have key : (∀ j, Tag.ask j ∉ s₀.tags) → Lone (s.step c e) := by
      intro hn
      rcases h1.tags with h3 | ⟨x, h3, -⟩
      · exact Lone.of_tags hInv' (x := cur) (Or.inl h3) hn
      · exact Lone.of_tags hInv' (Or.inr h3) hn
    apply key
    cases e with
    | ready i o d =>
      have hBot := h.bot
      rw [h2.2] at hBot
      have : s₀.tags = [] := hBot.1 rfl
      rw [this]; simp
    | notReady i => exact h2.elim
    | begin => exact hno (by simpa using ht) (by rw [h2.2]; simp)
    | fin i o => exact hno (by simpa using ht) (by rw [h2.2]; simp)
    | thrown i x d =>
      refine hno (by simpa using ht) ?_
      rcases h2.2 with h3 | h3 <;> rw [h3] <;> simp +contextual
    | txn i => exact hno (by simpa using ht) (by rw [h2.2]; simp)
    | ret d =>
      refine hno (by simpa using ht) ?_
      rcases h2 with ⟨i, h3, -⟩ | ⟨co, h3, -⟩ <;> rw [h3] <;> simp +contextual
    | cancel ct => exact hno (by simpa using ht) (by rw [h2.2]; simp)
    | interrupt => exact hno (by simpa using ht) (by rw [h2.2]; simp)

end Cobalt.Comb
