import Verif.Comb.Loops
/-! The invariant of the loops holds throughout. -/
namespace Cobalt.Comb

/-- One more loop. -/
theorem Inv2.push {c : Cfg} {g nc : Bool} {s : St} {fs : List Act} (h : Inv2 c g nc s fs) {a : Act} (ha : ActOk c s a)
    (h1 : ∀ p co ct since, a = .emit p co ct since → co ≠ .ext → c.kind ≠ .gather)
    (h2 : ∀ p co since, a = .intr p co since → co ≠ .ext → c.kind = .race)
    (h3 : nc = true → ∀ p ct since, a ≠ .emit p .ext ct since) : Inv2 c g nc s (a :: fs) := by
  constructor
  · intro b hb
    rcases List.mem_cons.1 hb with rfl | hb
    · exact ha
    · exact h.ok b hb
  · intro p co ct n hm hne
    rcases List.mem_cons.1 hm with he | he
    · exact h1 p co ct n he.symm hne
    · exact h.emitK p co ct n he hne
  · intro p co n hm hne
    rcases List.mem_cons.1 hm with he | he
    · exact h2 p co n he.symm hne
    · exact h.intrK p co n he hne
  · exact h.reach
  · exact h.working
  · exact h.asking
  · exact h.lt
  · intro hk he hph x hs
    obtain ⟨p, co', ct', n, h1, h2, h3⟩ := h.join hk he hph x hs
    exact ⟨p, co', ct', n, List.mem_cons_of_mem _ h1, h2, h3⟩
  · intro hk hg hi x hs
    rcases h.race hk hg hi x hs with ⟨p, co', n, h1, h2⟩ | ⟨p, co', ct', n, h1, h2, h3⟩
    · exact Or.inl ⟨p, co', n, List.mem_cons_of_mem _ h1, h2⟩
    · exact Or.inr ⟨p, co', ct', n, List.mem_cons_of_mem _ h1, h2, h3⟩
  · intro hk hg hi x hw hin
    rcases h.raceI hk hg hi x hw hin with h1 | ⟨p, co', n, h1, h2, h3⟩
    · exact Or.inl h1
    · exact Or.inr ⟨p, co', n, List.mem_cons_of_mem _ h1, h2, h3⟩
  · intro hn p ct n hm
    rcases List.mem_cons.1 hm with he | he
    · exact h3 hn p ct n he.symm
    · exact h.noExt hn p ct n he
  · exact h.once

theorem Inv2.pushOther {c : Cfg} {g nc : Bool} {s : St} {fs : List Act} (h : Inv2 c g nc s fs) :
    Inv2 c g nc s (.other :: fs) := h.push trivial (by simp) (by simp) (by simp)

theorem Inv2.popOther {c : Cfg} {g nc : Bool} {s : St} {fs : List Act} (h : Inv2 c g nc s (.other :: fs)) :
    Inv2 c g nc s fs := by
  constructor
  · exact fun a ha => h.ok a (List.mem_cons_of_mem _ ha)
  · exact fun p co ct' n hm => h.emitK p co ct' n (List.mem_cons_of_mem _ hm)
  · exact fun p co n hm => h.intrK p co n (List.mem_cons_of_mem _ hm)
  · exact h.reach
  · exact h.working
  · exact h.asking
  · exact h.lt
  · intro hk he hph x hs
    simpa using h.join hk he hph x hs
  · intro hk hg hi x hs
    simpa using h.race hk hg hi x hs
  · intro hk hg hi x hw hin
    simpa using h.raceI hk hg hi x hw hin
  · exact fun hn p ct' n hm => h.noExt hn p ct' n (List.mem_cons_of_mem _ hm)
  · exact h.once

theorem Inv2.weaken {c : Cfg} {g nc g' nc' : Bool} {s : St} {fs : List Act} (h : Inv2 c g nc s fs)
    (h1 : g' = true → g = true) (h2 : nc' = true → nc = true) : Inv2 c g' nc' s fs :=
  ⟨h.ok, h.emitK, h.intrK, h.reach, h.working, h.asking, h.lt, h.join, fun hk hg => h.race hk (h1 hg),
    fun hk hg => h.raceI hk (h1 hg), fun hn => h.noExt (h2 hn), fun hn => h.once (h2 hn)⟩

theorem Inv2.pushEmit {c : Cfg} {g nc : Bool} {s : St} {fs : List Act} (h : Inv2 c g nc s fs) {co : Cont}
    (hco : co ≠ .ext) (hk : c.kind ≠ .gather) : Inv2 c g nc s (.emit 0 co c.ct s.sent.length :: fs) := by
  refine h.push ⟨Nat.le_refl _, fun h => absurd h hco, fun _ => ⟨rfl, fun j hj => absurd hj (Nat.not_lt_zero _)⟩⟩
    (fun _ _ _ _ _ _ => hk) (by simp) ?_
  intro _ p ct n he
  simp only [Act.emit.injEq] at he
  exact hco he.2.1

/-- Nothing but the stack and other irrelevant things. -/
theorem Inv2.congr {c : Cfg} {g nc : Bool} {s t : St} {fs : List Act} (h : Inv2 c g nc s fs)
    (h1 : t.child = s.child) (h2 : t.working = s.working) (h3 : t.sig = s.sig) (h4 : t.sent = s.sent)
    (h5 : t.intd = s.intd) (h6 : t.index = s.index) (h7 : t.err = s.err) (h8 : t.phase = s.phase) :
    Inv2 c g nc t fs :=
  h.calm (fun j hj => ⟨by rw [← h1]; exact hj, by rw [h2]⟩) (fun j => by rw [h1]; exact id) h3 h4 h5 h6 h7
    (fun hp => Or.inl (by rw [← h8]; exact hp))

theorem endStart2_acts (s : St) : s.endStart2.acts = s.acts := by unfold St.endStart2; split <;> rfl

theorem Inv2.endStart2 {c : Cfg} {g nc : Bool} {s : St} (h : Inv2 c g nc s s.acts)
    (hj : c.kind = .join → s.err ≠ none → ∀ j, s.sig j = false) : Inv2 c g nc s.endStart2 s.endStart2.acts := by
  rw [endStart2_acts]
  unfold St.endStart2
  split <;> exact h.calm (fun _ hj => ⟨hj, rfl⟩) (fun _ h => h) rfl rfl rfl rfl rfl (fun _ => Or.inr hj)

theorem Inv2.endStart {c : Cfg} {g nc : Bool} {s : St} (h : Inv2 c g nc s s.acts) :
    Inv2 c g nc (s.endStart c) (s.endStart c).acts := by
  unfold St.endStart
  split
  · rename_i hj
    dsimp only
    obtain ⟨h1, h2⟩ := (h.pushEmit (co := .startEnd) (by simp) (by rw [hj.1]; simp)).scanEmit
    split
    · exact h1
    · rename_i hb
      exact h1.endStart2 (fun _ _ => (h2 (by simpa using hb)).1 (by simp))
  · rename_i hj
    exact h.endStart2 (fun hk he => absurd ⟨hk, he⟩ hj)

theorem Inv2.startNext {c : Cfg} {g nc : Bool} {s : St} (h : Inv2 c g nc s s.acts)
    (ht : ∀ i ∈ s.todo, s.child i = .idle) : Inv2 c g nc (s.startNext c) (s.startNext c).acts := by
  unfold St.startNext
  split
  · exact h.endStart
  · rename_i i rest hs
    have hi := ht i (by rw [hs]; simp)
    refine Inv2.calm (s := s) (h.pushOther : Inv2 c g nc s (.other :: s.acts)) ?_ ?_ rfl rfl rfl rfl rfl (fun hp => Or.inl hp)
    · intro j hj
      by_cases hji : j = i
      · simp [hji] at hj
      · simpa [hji] using hj
    · intro j hj
      by_cases hji : j = i
      · simp [hji, hi, CS.fresh]
      · simpa [hji] using hj

theorem Inv2.afterStart {c : Cfg} {g nc : Bool} {s : St} (h : Inv2 c g nc s s.acts)
    (ht : ∀ i ∈ s.todo, s.child i = .idle) (i : Nat) (d : Bool) :
    Inv2 c g nc (s.afterStart c i d) (s.afterStart c i d).acts := by
  unfold St.afterStart
  split
  · rename_i hk
    split
    · split
      · exact h.calm (fun _ hj => ⟨hj, rfl⟩) (fun _ h => h) rfl rfl rfl rfl rfl
          (fun _ => Or.inr (fun hj => by rw [hk] at hj; simp at hj))
      · exact h.startNext ht
    · dsimp only
      generalize (if s.child i = .finished then (if s.off i then d else true) else false) = b
      cases b
      · exact h.startNext ht
      · exact h.endStart
  · exact h.startNext ht

theorem finish_acts (s : St) (i : Nat) : (s.finish i).acts = s.acts := by
  unfold St.finish; dsimp only; split <;> rfl

theorem Inv2.finish {c : Cfg} {g nc : Bool} {s : St} (h : Inv2 c g nc s s.acts) (i : Nat) :
    Inv2 c g nc (s.finish i) (s.finish i).acts := by
  rw [finish_acts]
  unfold St.finish
  dsimp only
  split
  · rename_i hp
    refine h.calm ?_ ?_ rfl rfl rfl rfl rfl (fun _ => Or.inl (by rw [hp.2]; simp))
    · intro j hj
      by_cases hji : j = i
      · simp [hji] at hj
      · simpa [hji] using hj
    · intro j hj
      by_cases hji : j = i
      · simp [hji, CS.fresh] at hj
      · simpa [hji] using hj
  · refine h.calm ?_ ?_ rfl rfl rfl rfl rfl (fun hp => Or.inl hp)
    · intro j hj
      by_cases hji : j = i
      · simp [hji] at hj
      · simpa [hji] using hj
    · intro j hj
      by_cases hji : j = i
      · simp [hji, CS.fresh] at hj
      · simpa [hji] using hj

theorem Calm.finish {s : St} {i : Nat} {b : Bool} (h : Calm s (.finish i b)) :
    ∀ j ∈ (s.finish i).todo, (s.finish i).child j = .idle := by
  have hr := h.run i b rfl
  intro j hj
  rw [finish_todo] at hj
  have hj := h.todo j hj
  have hji : j ≠ i := by intro e; rw [e, hr] at hj; simp at hj
  unfold St.finish; dsimp only; split <;> simp [hji, hj]

theorem Inv2.done {c : Cfg} {g nc : Bool} {s : St} {co : Cont} (h : Inv2 c g nc s s.acts) (hc : Calm s co)
    (hs : co = .startEnd → ∀ j, s.sig j = false) (d : Bool) : Inv2 c g nc (s.done c co d) (s.done c co d).acts := by
  unfold St.done
  split
  · rename_i i b
    dsimp only
    split
    · exact (h.finish i).afterStart hc.finish i d
    · exact h.finish i
  · exact h
  · exact h.endStart2 (fun _ _ => hs rfl)
  · exact h

theorem Inv2.contEmit {c : Cfg} {g nc : Bool} {s : St} {k ct since : Nat} {co : Cont}
    (h : Inv2 c g nc s (.emit k co ct since :: s.acts)) (hc : Calm s co) (d : Bool) :
    Inv2 c g nc (s.contEmit c k co ct since d) (s.contEmit c k co ct since d).acts := by
  unfold St.contEmit
  dsimp only
  obtain ⟨h1, h2⟩ := h.scanEmit
  obtain ⟨-, e2, -, -, e5, -⟩ := scanEmit_tags (c := c) (s := s) (k := k) (co := co) (ct := ct) (since := since)
  split
  · exact h1
  · rename_i hb
    have h2 := h2 (by simpa using hb)
    exact h1.done (hc.congr e2 e5) (fun hs => h2.1 (by rw [hs]; simp)) d

theorem Inv2.contIntr {c : Cfg} {g nc : Bool} {s : St} {k since : Nat} {co : Cont}
    (h : Inv2 c g nc s (.intr k co since :: s.acts)) (hc : Calm s co) (d : Bool) :
    Inv2 c g nc (s.contIntr c k co since d) (s.contIntr c k co since d).acts := by
  unfold St.contIntr
  dsimp only
  obtain ⟨h1, h2⟩ := h.scanIntr
  split
  · rename_i hb; exact h1 hb
  · rename_i hb
    obtain ⟨e, h3, h4, -⟩ := h2 (by simpa using hb)
    rw [e]
    split
    · rename_i hco; exact h3 hco
    · rename_i hco; exact (h4 hco).contEmit hc d

/-- A child of a race completes or begins a transaction. -/
theorem Inv2.claim {c : Cfg} (hk : c.kind = .race) {g nc : Bool} {s t : St} {fs : List Act} {i : Nat} {co : Cont}
    (hco : co ≠ .ext) (h : Inv2 c g nc s fs)
    (h1 : ∀ j, t.child j = .waiting → s.child j = .waiting ∧ t.working j = s.working j)
    (h2 : ∀ j, (t.child j).fresh = true → (s.child j).fresh = true)
    (h3 : t.sig = upd s.sig i false) (h4 : t.sent = s.sent) (h5 : t.intd = s.intd)
    (h6 : t.index = s.index.or (some i)) (h7 : t.child i = .waiting → s.index = none)
    (h9 : ∀ j, t.child j = .asking → s.child j = .asking ∧ t.working j = s.working j) :
    Inv2 c g nc t (.intr 0 co t.intd.length :: fs) := by
  have hm : Mono c s t := by
    refine ⟨fun j hj => (h1 j hj).1, ?_, ?_, ⟨[], h4⟩, ⟨[], h5⟩⟩
    · intro j; rw [h3]; by_cases hj : j = i <;> simp [hj]
    · intro j hj hh; simp only [St.hit, hk, (h1 j hj).2] at hh ⊢; exact hh
  constructor
  · intro a ha
    rcases List.mem_cons.1 ha with rfl | ha
    · exact ⟨Nat.le_refl _, fun j hj => absurd hj (Nat.not_lt_zero _)⟩
    · exact hm.act (h.ok a ha)
  · intro p co' ct n hmm hne
    rw [hk]; simp
  · intro p co' n hmm hne
    exact hk
  · intro j hj
    rw [h3, h4, h6]
    by_cases hji : j = i
    · right; right; rw [hji] at hj ⊢; rw [h7 hj]; exact ⟨hk, rfl⟩
    · rcases h.reach j (h1 j hj).1 with h8 | h8 | h8
      · left; simpa [hji] using h8
      · exact Or.inr (Or.inl h8)
      · right; right; rw [h8.2]; exact ⟨hk, rfl⟩
  · intro j hj; rw [(h1 j hj).2]; exact h.working j (h1 j hj).1
  · intro j hj; rw [(h9 j hj).2]; exact h.asking j (h9 j hj).1
  · intro j hj; exact h.lt j (h1 j hj).1
  · intro hj; rw [hk] at hj; simp at hj
  · intro _ _ _ j _
    exact Or.inl ⟨0, co, _, List.mem_cons_self, hco⟩
  · intro _ _ _ j _ _
    exact Or.inr ⟨0, co, _, List.mem_cons_self, hco, Nat.zero_le _⟩
  · intro hn p ct n hmm
    rcases List.mem_cons.1 hmm with he | he
    · simp at he
    · exact h.noExt hn p ct n he
  · intro hn j
    rw [h3, h4]
    refine ⟨(h.once hn j).1, fun hx => (h.once hn j).2 (hx.imp (fun h => ?_) (h2 j))⟩
    by_cases hji : j = i <;> simp_all

/-- A child of a join fails. -/
theorem Inv2.fail {c : Cfg} (hk : c.kind = .join) {g nc : Bool} {s t : St} {fs : List Act} {co : Cont}
    (hco : co ≠ .ext) (h : Inv2 c g nc s fs)
    (h1 : ∀ j, t.child j = .waiting → s.child j = .waiting ∧ t.working j = s.working j)
    (h2 : ∀ j, (t.child j).fresh = true → (s.child j).fresh = true)
    (h3 : t.sig = s.sig) (h4 : t.sent = s.sent) (h5 : t.intd = s.intd) (h6 : t.index = s.index)
    (h9 : ∀ j, t.child j = .asking → s.child j = .asking ∧ t.working j = s.working j) :
    Inv2 c g nc t (.emit 0 co c.ct t.sent.length :: fs) := by
  have hm : Mono c s t := ⟨fun j hj => (h1 j hj).1, by rw [h3]; exact fun _ h => h,
    fun j hj hh => by simpa only [St.hit, h3, (h1 j hj).2] using hh, ⟨[], h4⟩, ⟨[], h5⟩⟩
  constructor
  · intro a ha
    rcases List.mem_cons.1 ha with rfl | ha
    · exact ⟨Nat.le_refl _, fun h => absurd h hco, fun _ => ⟨rfl, fun j hj => absurd hj (Nat.not_lt_zero _)⟩⟩
    · exact hm.act (h.ok a ha)
  · intro p co' ct n hmm hne
    rw [hk]; simp
  · intro p co' n hmm hne
    rcases List.mem_cons.1 hmm with he | he
    · simp at he
    · exact h.intrK p co' n he hne
  · intro j hj
    rw [h3, h4, h6]
    exact h.reach j (h1 j hj).1
  · intro j hj; rw [(h1 j hj).2]; exact h.working j (h1 j hj).1
  · intro j hj; rw [(h9 j hj).2]; exact h.asking j (h9 j hj).1
  · intro j hj; exact h.lt j (h1 j hj).1
  · intro _ _ _ j _
    exact ⟨0, co, _, _, List.mem_cons_self, hco, Nat.zero_le _⟩
  · intro hj; rw [hk] at hj; simp at hj
  · intro hj; rw [hk] at hj; simp at hj
  · intro hn p ct n hmm
    rcases List.mem_cons.1 hmm with he | he
    · simp only [Act.emit.injEq] at he; exact absurd he.2.1.symm hco
    · exact h.noExt hn p ct n he
  · intro hn j
    rw [h3, h4]
    exact ⟨(h.once hn j).1, fun hx => (h.once hn j).2 (hx.imp id (h2 j))⟩

theorem running_waiting {s : St} {i : Nat} :
    ∀ j, upd s.child i .running j = .waiting → s.child j = .waiting := by
  intro j hj
  by_cases hji : j = i
  · simp [hji] at hj
  · simpa [hji] using hj

theorem running_asking {s : St} {i : Nat} :
    ∀ j, upd s.child i .running j = .asking → s.child j = .asking := by
  intro j hj
  by_cases hji : j = i
  · simp [hji] at hj
  · simpa [hji] using hj

theorem running_fresh {s : St} {i : Nat} :
    ∀ j, (upd s.child i .running j).fresh = true → (s.child j).fresh = true := by
  intro j hj
  by_cases hji : j = i
  · simp [hji, CS.fresh] at hj
  · simpa [hji] using hj

theorem Inv2.complete {c : Cfg} {g nc : Bool} {s : St} {i : Nat} {o : Out} {b d : Bool}
    (h : Inv2 c g nc s s.acts) (hc : Calm { s with child := upd s.child i .running } (.finish i b)) :
    Inv2 c g nc (s.complete c i o b d) (s.complete c i o b d).acts := by
  have hf := record_frame c s i o b
  have hcr : Calm (s.record c i o b) (.finish i b) := hc.congr hf.1 hf.2
  unfold St.complete
  unfold St.record at hcr
  dsimp only at hcr ⊢
  cases hk : c.kind <;> simp only [hk] at hcr ⊢
  · refine Inv2.done ?_ hcr (by simp) d
    exact h.calm (fun j hj => ⟨running_waiting j hj, rfl⟩) running_fresh rfl rfl rfl rfl rfl (fun hp => Or.inl hp)
  · cases o
    · refine Inv2.done ?_ hcr (by simp) d
      exact h.calm (fun j hj => ⟨running_waiting j hj, rfl⟩) running_fresh rfl rfl rfl rfl rfl (fun hp => Or.inl hp)
    · refine Inv2.contEmit ?_ hcr d
      exact Inv2.fail hk (by simp) h (fun j hj => ⟨running_waiting j hj, rfl⟩) running_fresh rfl rfl rfl rfl
        (fun j hj => ⟨running_asking j hj, rfl⟩)
  · have h1 := raceReady_frame c { s with child := upd s.child i .running } i o
    have h2 := raceSuspended_frame c { s with child := upd s.child i .running } i o
    dsimp only at h1 h2
    cases b
    · obtain ⟨a1, -, a3, a4, a5, a6, a7, a8, a9, a10, a11, -⟩ := h2
      simp only [Bool.false_eq_true, if_false] at hcr ⊢
      have hacts : St.acts { St.raceSuspended c { s with child := upd s.child i .running } i o with
        sig := upd (St.raceSuspended c { s with child := upd s.child i .running } i o).sig i false } = s.acts := by
        simp only [St.acts, a6]
      refine Inv2.contIntr ?_ hcr d
      rw [hacts]
      refine Inv2.claim hk (i := i) (by simp) h ?_ ?_ ?_ a10 a11 (raceSuspended_index ..) ?_ ?_
      · intro j hj
        dsimp only at hj ⊢
        rw [a1] at hj; rw [a9]
        exact ⟨running_waiting j hj, rfl⟩
      · intro j; dsimp only; rw [a1]; exact running_fresh j
      · simp only [a8]
      · dsimp only; rw [a1]; simp
      · intro j hj
        dsimp only at hj ⊢
        rw [a1] at hj; rw [a9]
        exact ⟨running_asking j hj, rfl⟩
    · obtain ⟨a1, -, a3, a4, a5, a6, a7, a8, a9, a10, a11, -⟩ := h1
      simp only [if_true] at hcr ⊢
      have hacts : St.acts { St.raceReady c { s with child := upd s.child i .running } i o with
        sig := upd (St.raceReady c { s with child := upd s.child i .running } i o).sig i false } = s.acts := by
        simp only [St.acts, a6]
      refine Inv2.contIntr ?_ hcr d
      rw [hacts]
      refine Inv2.claim hk (i := i) (by simp) h ?_ ?_ ?_ a10 a11 (raceReady_index ..) ?_ ?_
      · intro j hj
        dsimp only at hj ⊢
        rw [a1] at hj; rw [a9]
        exact ⟨running_waiting j hj, rfl⟩
      · intro j; dsimp only; rw [a1]; exact running_fresh j
      · simp only [a8]
      · dsimp only; rw [a1]; simp
      · intro j hj
        dsimp only at hj ⊢
        rw [a1] at hj; rw [a9]
        exact ⟨running_asking j hj, rfl⟩

theorem Inv2.thrown {c : Cfg} {g nc : Bool} {s : St} {i : Nat} {e : Nat} {d : Bool}
    (h : Inv2 c g nc s s.acts) (hc : Calm { s with child := upd s.child i .running } (.finish i true))
    (hg : c.kind = .race → g = true → s.index ≠ none) :
    Inv2 c g nc (s.thrown c i e d) (s.thrown c i e d).acts := by
  have hf := recordThrown_frame c s i e
  have hcr : Calm (s.recordThrown c i e) (.finish i true) := hc.congr hf.1 hf.2
  unfold St.thrown
  unfold St.recordThrown at hcr
  dsimp only at hcr ⊢
  cases hk : c.kind <;> simp only [hk] at hcr ⊢
  · refine Inv2.done ?_ hcr (by simp) d
    exact h.calm (fun j hj => ⟨running_waiting j hj, rfl⟩) running_fresh rfl rfl rfl rfl rfl (fun hp => Or.inl hp)
  · refine Inv2.contEmit ?_ hcr d
    exact Inv2.fail hk (by simp) h (fun j hj => ⟨running_waiting j hj, rfl⟩) running_fresh rfl rfl rfl rfl
        (fun j hj => ⟨running_asking j hj, rfl⟩)
  · refine Inv2.done ?_ hcr (by simp) d
    -- the state after recording
    have hx : ∀ t : St, t.child = upd s.child i .running → t.working = s.working → t.sig = s.sig → t.sent = s.sent →
        t.intd = s.intd → t.index = s.index.or (some i) → t.acts = s.acts → Inv2 c g nc t t.acts := by
      intro t h1 h2 h3 h4 h5 h6 h7
      rw [h7]
      have hw : ∀ j, t.child j = .waiting → s.child j = .waiting := by rw [h1]; exact running_waiting
      have hm : Mono c s t := ⟨hw, by rw [h3]; exact fun _ h => h,
        fun j hj hh => by simpa only [St.hit, h3, h2] using hh, ⟨[], h4⟩, ⟨[], h5⟩⟩
      constructor
      · exact fun a ha => hm.act (h.ok a ha)
      · exact h.emitK
      · exact h.intrK
      · intro j hj
        rw [h3, h4, h6]
        rcases h.reach j (hw j hj) with h8 | h8 | h8
        · exact Or.inl h8
        · exact Or.inr (Or.inl h8)
        · right; right; rw [h8.2]; exact ⟨hk, rfl⟩
      · intro j hj; rw [h2]; exact h.working j (hw j hj)
      · intro j hj; rw [h2]; exact h.asking j (running_asking j (by rw [← h1]; exact hj))
      · intro j hj; exact h.lt j (hw j hj)
      · intro hj; rw [hk] at hj; simp at hj
      · intro _ hgg _ j hj
        rw [h3] at hj
        exact h.race hk hgg (hg hk hgg) j hj
      · intro _ hgg _ j hj hi
        rw [h5]
        exact h.raceI hk hgg (hg hk hgg) j (hw j hj) hi
      · exact h.noExt
      · intro hn j
        rw [h3, h4]
        refine ⟨(h.once hn j).1, fun hx => (h.once hn j).2 (hx.imp id ?_)⟩
        rw [h1]; exact running_fresh j
    cases hs : s.index with
    | none => simp only [if_true]; exact hx _ rfl rfl rfl rfl rfl (by simp [hs]) rfl
    | some j =>
      simp only [reduceCtorEq, if_false]
      split
      · exact hx _ rfl rfl rfl rfl rfl (by simp [hs]) rfl
      · exact hx _ rfl rfl rfl rfl rfl (by simp [hs]) rfl

/-- `g` of the history: see `Inv2`. -/
def goodEv (s : St) : Ev → Bool
  | .notReady _ => s.index.isNone
  | .thrown _ _ _ => s.index.isSome
  | _ => true

def Ev.isCancel : Ev → Bool
  | .cancel _ => true
  | _ => false

theorem Inv2.step {c : Cfg} (hc : c.Ok) {g nc : Bool} {s : St} (hi : Inv c s s.tags) (hb : Bot s.tags)
    (h : Inv2 c g nc s s.acts) {e : Ev} (hu : s.ub = false) (hcan : s.can c e = true) :
    Inv2 c (g && goodEv s e) (nc && !e.isCancel) (s.step c e) (s.step c e).acts := by
  have hw : Inv2 c (g && goodEv s e) (nc && !e.isCancel) s s.acts :=
    h.weaken (fun h => by simp only [Bool.and_eq_true] at h; exact h.1)
      (fun h => by simp only [Bool.and_eq_true] at h; exact h.1)
  unfold St.step
  rw [if_neg (by simp [hu, hcan])]
  cases e with
  | begin =>
    dsimp only
    split
    · exact hw.calm (fun _ hj => ⟨hj, rfl⟩) (fun _ h => h) rfl rfl rfl rfl rfl (fun hp => by simp at hp)
    · have hp : s.phase = .before := by simpa [St.can] using hcan
      have h4 := (hi.before hp).2.2.2
      refine Inv2.startNext ?_ (fun i _ => h4 i)
      exact hw.calm (fun _ hj => ⟨hj, rfl⟩) (fun _ h => h) rfl rfl rfl rfl rfl (fun hp => by simp at hp)
  | ready i o d =>
    have hh : s.stack.head? = some (.asking i) := by simpa [St.can] using hcan
    have ht := tags_of_head hh
    rw [ht] at hi
    have hacts : s.acts = .other :: St.acts { s with stack := s.stack.tail } := by
      cases hs : s.stack with
      | nil => simp [hs] at hh
      | cons f r => simp only [hs, List.head?_cons, Option.some.injEq] at hh; subst hh; simp [St.acts, hs, Frame.act]
    rw [hacts] at hw
    refine Inv2.complete (hw.popOther.congr rfl rfl rfl rfl rfl rfl rfl rfl) ?_
    exact Calm.of_inv (Inv.toRunning (s := { s with stack := s.stack.tail }) (c := c)
      (T := s.stack.tail.map Frame.tag) (Or.inr (Or.inl ⟨rfl, hi.congr rfl rfl rfl rfl rfl⟩)))
  | notReady i =>
    have hh : s.stack.head? = some (.asking i) := by simpa [St.can] using hcan
    have ht := tags_of_head hh
    have hA := (hi.asking i).2 (by rw [ht]; simp [Frame.tag])
    have hin : i < c.n := (hc.mem i).1 (hi.known i (by rw [hA]; simp))
    have hps : s.phase = .starting := by
      have := hi; rw [ht] at this; exact this.phase_of rfl
    rw [ht] at hb
    have hnil : s.stack.tail = [] := List.map_eq_nil_iff.1 (hb.1 rfl)
    have hacts : s.acts = [.other] := by
      cases hs : s.stack with
      | nil => simp [hs] at hh
      | cons f r =>
        simp only [hs, List.head?_cons, Option.some.injEq] at hh; subst hh
        simp only [hs, List.tail_cons] at hnil
        simp [St.acts, hs, Frame.act, hnil]
    rw [hacts] at hw
    have hg : s.index = none ∨ (g && goodEv s (.notReady i)) = false := by
      cases hx : s.index <;> simp [goodEv, hx]
    dsimp only
    rw [hnil]
    refine ⟨?_, ?_, ?_, ?_, ?_, ?_, ?_, ?_, ?_, ?_, ?_, ?_⟩
    · intro a ha
      simp only [St.acts, List.map_cons, List.map_nil, Frame.act, List.mem_singleton] at ha
      subst ha; trivial
    · intro p co ct n hm; simp [St.acts, Frame.act] at hm
    · intro p co n hm; simp [St.acts, Frame.act] at hm
    · intro j hj
      dsimp only
      by_cases hji : j = i
      · left; simp [hji]
      · have := hw.reach j (by simpa [hji] using hj)
        simpa [hji] using this
    · intro j hj
      by_cases hji : j = i
      · rw [hji]; exact hw.asking i hA
      · exact hw.working j (by simpa [hji] using hj)
    · intro j hj
      by_cases hji : j = i
      · simp [hji] at hj
      · exact hw.asking j (by simpa [hji] using hj)
    · intro j hj
      by_cases hji : j = i
      · rw [hji]; exact hin
      · exact hw.lt j (by simpa [hji] using hj)
    · intro _ _ hp; exact absurd hps hp
    · intro _ hgg hx
      rcases hg with h1 | h1
      · exact absurd h1 hx
      · rw [h1] at hgg; simp at hgg
    · intro _ hgg hx
      rcases hg with h1 | h1
      · exact absurd h1 hx
      · rw [h1] at hgg; simp at hgg
    · intro _ p ct n hm; simp [St.acts, Frame.act] at hm
    · intro hn j
      refine ⟨(hw.once hn j).1, fun hx => ?_⟩
      by_cases hji : j = i
      · rw [hji]; exact (hw.once hn i).2 (Or.inr (by rw [hA]; rfl))
      · exact (hw.once hn j).2 (by simpa [hji] using hx)
  | thrown i x d =>
    have hgg : c.kind = .race → (g && goodEv s (.thrown i x d)) = true → s.index ≠ none := by
      intro _ hg; simp only [goodEv, Bool.and_eq_true] at hg
      intro h0; rw [h0] at hg; simp at hg
    simp only [St.can, Bool.or_eq_true, beq_iff_eq, Bool.and_eq_true] at hcan
    have hacts : s.acts = .other :: St.acts { s with stack := s.stack.tail } := by
      cases hs : s.stack with
      | nil => simp [hs] at hcan
      | cons f r =>
        simp only [hs, List.head?_cons, Option.some.injEq] at hcan
        rcases hcan with hh | ⟨hh, -⟩ <;> subst hh <;> simp [St.acts, hs, Frame.act]
    rw [hacts] at hw
    refine Inv2.thrown (hw.popOther.congr rfl rfl rfl rfl rfl rfl rfl rfl) ?_ hgg
    rcases hcan with hh | ⟨hh, hwt⟩
    · have ht := tags_of_head hh
      rw [ht] at hi
      exact Calm.of_inv (Inv.toRunning (s := { s with stack := s.stack.tail }) (c := c)
        (T := s.stack.tail.map Frame.tag) (Or.inr (Or.inl ⟨rfl, hi.congr rfl rfl rfl rfl rfl⟩)))
    · have ht := tags_of_head hh
      rw [ht] at hi
      exact Calm.of_inv (Inv.toRunning (s := { s with stack := s.stack.tail }) (c := c)
        (T := s.stack.tail.map Frame.tag) (Or.inr (Or.inr ⟨rfl, hwt, hi.congr rfl rfl rfl rfl rfl⟩)))
  | fin i o =>
    simp only [St.can, Bool.and_eq_true, beq_iff_eq] at hcan
    exact hw.complete (Calm.of_inv (Inv.toRunning (Or.inl ⟨rfl, hcan.1, hi⟩)))
  | txn i =>
    dsimp only
    simp only [St.can, Bool.and_eq_true, beq_iff_eq] at hcan
    split
    · rename_i hx
      refine Inv2.contIntr (s := { s with sig := upd s.sig i false, index := some i }) (co := .txn i) ?_ ⟨fun j hj => (hi.todo j hj).1, by simp⟩ _
      refine Inv2.claim hcan.1.1 (i := i) (by simp) hw (fun _ hj => ⟨hj, rfl⟩) (fun _ h => h) rfl rfl rfl ?_ (fun _ => hx)
        (fun _ hj => ⟨hj, rfl⟩)
      rw [hx]; rfl
    · exact hw
  | ret d =>
    cases hs : s.stack with
    | nil => simp only [hs]; exact hw
    | cons f rest =>
      have hacts : s.acts = f.act :: rest.map Frame.act := by simp [St.acts, hs]
      rw [hacts] at hw
      cases f with
      | asking k => simp only [hs]; rw [hacts]; exact hw
      | starting k =>
        refine Inv2.afterStart (s := { s with stack := rest }) ?_ (fun j hj => (hi.todo j hj).1) k d
        exact hw.popOther.congr rfl rfl rfl rfl rfl rfl rfl rfl
      | intr k co since =>
        have ht : s.tags = .co co :: rest.map Frame.tag := by simp [St.tags, hs, Frame.tag]
        rw [ht] at hi
        simp only [hs]
        split
        · rw [show St.acts { s with stack := Frame.intr k co since :: rest, ub := true } = Frame.act (.intr k co since) :: rest.map Frame.act from rfl]
          exact hw.congr rfl rfl rfl rfl rfl rfl rfl rfl
        · refine Inv2.contIntr (s := { s with stack := rest }) ?_ ((Calm.of_inv hi).congr rfl rfl) d
          exact hw.congr rfl rfl rfl rfl rfl rfl rfl rfl
      | emit k co ct since =>
        have ht : s.tags = .co co :: rest.map Frame.tag := by simp [St.tags, hs, Frame.tag]
        rw [ht] at hi
        simp only [hs]
        split
        · rw [show St.acts { s with stack := Frame.emit k co ct since :: rest, ub := true } = Frame.act (.emit k co ct since) :: rest.map Frame.act from rfl]
          exact hw.congr rfl rfl rfl rfl rfl rfl rfl rfl
        · refine Inv2.contEmit (s := { s with stack := rest }) ?_ ((Calm.of_inv hi).congr rfl rfl) d
          exact hw.congr rfl rfl rfl rfl rfl rfl rfl rfl
  | cancel ct =>
    refine Inv2.contEmit ?_ ⟨fun j hj => (hi.todo j hj).1, by simp⟩ _
    refine hw.push ⟨Nat.le_refl _, fun _ j hj => absurd hj (Nat.not_lt_zero _), fun h => absurd rfl h⟩ ?_ (by simp) ?_
    · intro p co ct' n he hne
      simp only [Act.emit.injEq] at he; exact absurd he.2.1.symm hne
    · intro hn; simp [Ev.isCancel] at hn
  | interrupt =>
    refine Inv2.contIntr ?_ ⟨fun j hj => (hi.todo j hj).1, by simp⟩ _
    refine hw.push ⟨Nat.le_refl _, fun j hj => absurd hj (Nat.not_lt_zero _)⟩ (by simp) ?_ (by simp)
    intro p co n he hne
    simp only [Act.intr.injEq] at he; exact absurd he.2.1.symm hne

/-- No child was started after there was a winner, and the winner did not throw
while being started. -/
def good (c : Cfg) : St → List Ev → Bool
  | _, [] => true
  | s, e :: es => goodEv s e && good c (s.step c e) es

structure All (c : Cfg) (g nc : Bool) (s : St) (es : List Ev) : Prop where
  ub : s.ub = false
  inv : Inv c s s.tags
  bot : Bot s.tags
  hist : Hist c s es
  loops : Inv2 c g nc s s.acts

theorem All.init (c : Cfg) : All c true true {} [] :=
  ⟨rfl, Inv.init c, trivial, Hist.init c, Inv2.init c⟩

theorem All.step {c : Cfg} (hc : c.Ok) {g nc : Bool} {s : St} {es : List Ev} (h : All c g nc s es) {e : Ev}
    (hcan : s.can c e = true) : (s.step c e).ub = true ∨
      All c (g && goodEv s e) (nc && !e.isCancel) (s.step c e) (es ++ [e]) := by
  by_cases hu : (s.step c e).ub = true
  · exact Or.inl hu
  right
  have hu' : (s.step c e).ub = false := by simpa using hu
  refine ⟨hu', ?_, ?_, ?_, h.loops.step hc h.inv h.bot h.ub hcan⟩
  · exact (h.inv.step hc e).resolve_left hu
  · exact (Bot.step h.inv h.bot e).resolve_left hu
  · exact (h.hist.step h.inv h.ub hcan).resolve_left hu

theorem All.steps {c : Cfg} (hc : c.Ok) : ∀ (es pre : List Ev) {g nc : Bool} {s : St}, All c g nc s pre →
    Legal c s es → (s.steps c es).ub = true ∨
      All c (g && good c s es) (nc && es.all fun e => !e.isCancel) (s.steps c es) (pre ++ es)
  | [], pre, g, nc, _, h, _ => by
    right; rw [List.append_nil]; simpa [good, St.steps] using h
  | e :: es, pre, g, nc, s, h, hl => by
    rcases h.step hc hl.1 with h1 | h1
    · exact Or.inl (steps_ub es h1)
    · have := All.steps hc es (pre ++ [e]) h1 hl.2
      rw [List.append_assoc] at this
      rw [List.all_cons, good, ← Bool.and_assoc, ← Bool.and_assoc]
      exact this

/-- No awaitable is started after another has won, and none wins by throwing while
being started. -/
theorem good_of {c : Cfg} (hc : c.Ok) (hk : c.kind = .race) : ∀ (es pre : List Ev) {g nc : Bool} {s : St},
    All c g nc s pre → Legal c s es → (s.steps c es).ub = false → LateFree (pre ++ es) → good c s es = true
  | [], _, _, _, _, _, _, _, _ => rfl
  | e :: es, pre, g, nc, s, h, hl, hu, hf => by
    rcases h.step hc hl.1 with h1 | h1
    · have := steps_ub (c := c) es h1
      rw [show St.steps c (s.step c e) es = St.steps c s (e :: es) from rfl, hu] at this
      simp at this
    · have h2 := good_of hc hk es (pre ++ [e]) h1 hl.2 hu (by simpa using hf)
      have h3 := hf pre e es rfl
      rw [← h.hist.race hk] at h3
      rw [good, h2, Bool.and_true]
      cases e <;> simp only [goodEv]
      case notReady i => rw [h3.1 i rfl]; rfl
      case thrown i x d =>
        have := h3.2 i x d rfl
        cases hx : s.index
        · exact absurd hx this
        · rfl

theorem All.run {c : Cfg} (hc : c.Ok) {es : List Ev} (hl : Legal c {} es) (hu : (St.run c es).ub = false) :
    All c (good c {} es) (es.all fun e => !e.isCancel) (St.run c es) es := by
  have := All.steps hc es [] (All.init c) hl
  simp only [Bool.true_and, List.nil_append] at this
  rcases this with h | h
  · rw [show St.steps c {} es = St.run c es from rfl, hu] at h; simp at h
  · exact h

end Cobalt.Comb
