import Verif.Comb.LoopsStep
/-! The awaitables of a combinator are started in the order given. -/
namespace Cobalt.Comb

/-- From `s` to `t` awaitables were taken from the front of `todo` and started. -/
def Taken (s t : St) : Prop :=
  (∃ l, s.todo = l ++ t.todo ∧ ∀ j ∈ l, t.child j ≠ .idle) ∧ ∀ j, s.child j ≠ .idle → t.child j ≠ .idle

theorem Taken.same {s t : St} (h1 : t.todo = s.todo) (h2 : ∀ j, s.child j ≠ .idle → t.child j ≠ .idle) : Taken s t :=
  ⟨⟨[], by simp [h1]⟩, h2⟩

theorem Taken.refl (s : St) : Taken s s := Taken.same rfl fun _ h => h

theorem Taken.trans {s t u : St} (h : Taken s t) (k : Taken t u) : Taken s u := by
  obtain ⟨⟨l, h1, h2⟩, h3⟩ := h
  obtain ⟨⟨m, k1, k2⟩, k3⟩ := k
  refine ⟨⟨l ++ m, by rw [h1, k1, List.append_assoc], fun j hj => ?_⟩, fun j hj => k3 j (h3 j hj)⟩
  rcases List.mem_append.1 hj with hj | hj
  · exact k3 j (h2 j hj)
  · exact k2 j hj

theorem Taken.scanEmit (c : Cfg) (s : St) (k : Nat) (co : Cont) (ct since : Nat) :
    Taken s (St.scanEmit c s k co ct since).1 := by
  unfold St.scanEmit; split <;> exact Taken.same rfl fun _ h => h

theorem Taken.scanIntr (c : Cfg) (s : St) (k : Nat) (co : Cont) (since : Nat) :
    Taken s (St.scanIntr c s k co since).1 := by
  unfold St.scanIntr; split <;> exact Taken.same rfl fun _ h => h

theorem Taken.endStart2 (s : St) : Taken s s.endStart2 := by
  unfold St.endStart2; split <;> exact Taken.same rfl fun _ h => h

theorem Taken.endStart (c : Cfg) (s : St) : Taken s (s.endStart c) := by
  unfold St.endStart
  split
  · dsimp only
    split
    · exact Taken.scanEmit ..
    · exact (Taken.scanEmit ..).trans (Taken.endStart2 _)
  · exact Taken.endStart2 _

theorem Taken.startNext (c : Cfg) (s : St) : Taken s (s.startNext c) := by
  unfold St.startNext
  split
  · exact Taken.endStart ..
  · rename_i i rest ht
    refine ⟨⟨[i], by rw [ht]; rfl, fun j hj => ?_⟩, fun j hj => ?_⟩
    · rw [List.mem_singleton.1 hj]; simp
    · simp only [upd_apply]; split
      · simp
      · exact hj

theorem Taken.afterStart (c : Cfg) (s : St) (i : Nat) (d : Bool) : Taken s (s.afterStart c i d) := by
  unfold St.afterStart
  split
  · split
    · split
      · exact Taken.same rfl fun _ h => h
      · exact Taken.startNext c s
    · dsimp only
      generalize (if s.child i = .finished then (if s.off i then d else true) else false) = b
      cases b
      · exact Taken.startNext c s
      · exact Taken.endStart ..
  · exact Taken.startNext c s

theorem Taken.finish (s : St) (i : Nat) : Taken s (s.finish i) := by
  refine Taken.same (finish_todo s i) fun j hj => ?_
  unfold St.finish
  dsimp only
  split <;> (simp only [upd_apply]; split <;> simp_all)

theorem Taken.done (c : Cfg) (s : St) (co : Cont) (d : Bool) : Taken s (s.done c co d) := by
  unfold St.done
  split
  · dsimp only
    split
    · exact (Taken.finish s _).trans (Taken.afterStart ..)
    · exact Taken.finish s _
  · exact Taken.refl _
  · exact Taken.endStart2 _
  · exact Taken.refl _

theorem Taken.contEmit (c : Cfg) (s : St) (k : Nat) (co : Cont) (ct since : Nat) (d : Bool) :
    Taken s (s.contEmit c k co ct since d) := by
  unfold St.contEmit
  dsimp only
  split
  · exact Taken.scanEmit ..
  · exact (Taken.scanEmit ..).trans (Taken.done ..)

theorem Taken.contIntr (c : Cfg) (s : St) (k : Nat) (co : Cont) (since : Nat) (d : Bool) :
    Taken s (s.contIntr c k co since d) := by
  unfold St.contIntr
  dsimp only
  split
  · exact Taken.scanIntr ..
  · split
    · exact Taken.scanIntr ..
    · exact (Taken.scanIntr ..).trans (Taken.contEmit ..)

theorem Taken.complete (c : Cfg) (s : St) (i : Nat) (o : Out) (b d : Bool) : Taken s (s.complete c i o b d) := by
  unfold St.complete
  dsimp only
  have hr : ∀ t : St, t.child = upd s.child i .running → t.todo = s.todo → Taken s t := by
    intro t h1 h2
    refine Taken.same h2 fun j hj => ?_
    rw [h1]; simp only [upd_apply]; split <;> simp_all
  split
  · refine Taken.trans ?_ (Taken.done ..)
    exact hr _ rfl rfl
  · split
    · refine Taken.trans ?_ (Taken.done ..)
      exact hr _ rfl rfl
    · refine Taken.trans ?_ (Taken.contEmit ..)
      exact hr _ rfl rfl
  · refine Taken.trans ?_ (Taken.contIntr ..)
    have h1 := raceReady_frame c { s with child := upd s.child i .running } i o
    have h2 := raceSuspended_frame c { s with child := upd s.child i .running } i o
    dsimp only at h1 h2
    refine hr _ ?_ ?_ <;> cases b <;> simp_all

theorem Taken.thrown (c : Cfg) (s : St) (i : Nat) (e : Nat) (d : Bool) : Taken s (s.thrown c i e d) := by
  unfold St.thrown
  dsimp only
  have hr : ∀ t : St, t.child = upd s.child i .running → t.todo = s.todo → Taken s t := by
    intro t h1 h2
    refine Taken.same h2 fun j hj => ?_
    rw [h1]; simp only [upd_apply]; split <;> simp_all
  split
  · refine Taken.trans ?_ (Taken.done ..)
    exact hr _ rfl rfl
  · refine Taken.trans ?_ (Taken.contEmit ..)
    exact hr _ rfl rfl
  · refine Taken.trans ?_ (Taken.done ..)
    refine hr _ ?_ ?_ <;> (repeat' split) <;> rfl

/-- One step takes awaitables from the front, or begins. -/
theorem Taken.step (c : Cfg) (s : St) (e : Ev) (he : e ≠ .begin) : Taken s (s.step c e) := by
  unfold St.step
  split
  · exact Taken.refl _
  · have hs : ∀ (l : List Frame), Taken s { s with stack := l } := fun _ => Taken.same rfl fun _ h => h
    cases e with
    | begin => exact absurd rfl he
    | ready i o d => exact (hs _).trans (Taken.complete ..)
    | notReady i =>
      refine Taken.same rfl fun j hj => ?_
      simp only [upd_apply]; split <;> simp_all
    | thrown i x d => exact (hs _).trans (Taken.thrown ..)
    | fin i o => exact Taken.complete ..
    | txn i =>
      dsimp only
      split
      · refine Taken.trans ?_ (Taken.contIntr ..)
        exact Taken.same rfl fun _ h => h
      · exact Taken.refl _
    | ret d =>
      dsimp only
      split
      · exact Taken.refl _
      · exact Taken.refl _
      · exact (hs _).trans (Taken.afterStart ..)
      · split
        · exact Taken.same rfl fun _ h => h
        · exact (hs _).trans (Taken.contIntr ..)
      · split
        · exact Taken.same rfl fun _ h => h
        · exact (hs _).trans (Taken.contEmit ..)
    | cancel ct => exact Taken.contEmit ..
    | interrupt => exact Taken.contIntr ..

/-- The awaitables not in `todo` any more were the first of the order, and each that
waits has said that it is not ready. -/
structure Front (c : Cfg) (s : St) (es : List Ev) : Prop where
  front : (∃ j, s.child j ≠ .idle) → ∃ l, c.order = l ++ s.todo ∧ ∀ j ∈ l, s.child j ≠ .idle
  waiting : ∀ j, s.child j = .waiting → Ev.notReady j ∈ es

theorem Front.init (c : Cfg) : Front c {} [] := ⟨by simp, by simp⟩

theorem Front.step {c : Cfg} {s : St} {es : List Ev} (hi : Inv c s s.tags) (hh : Hist c s es) (h : Front c s es) {e : Ev}
    (hu : s.ub = false) (hcan : s.can c e = true) (hu2 : (s.step c e).ub = false) :
    Front c (s.step c e) (es ++ [e]) := by
  constructor
  · intro hex
    by_cases he : e = .begin
    · subst he
      have hp : s.phase = .before := by simpa [St.can] using hcan
      have hb := hi.before hp
      unfold St.step at hu2 hex ⊢
      rw [if_neg (by simp [hu, hcan])] at hu2 hex ⊢
      dsimp only at hu2 hex ⊢
      by_cases hn : c.order = []
      · rw [if_pos hn] at hu2; simp at hu2
      · rw [if_neg hn]
        obtain ⟨⟨l, h1, h2⟩, -⟩ := Taken.startNext c { s with phase := .starting, todo := c.order }
        exact ⟨l, h1, h2⟩
    · obtain ⟨⟨m, k1, k2⟩, k3⟩ := Taken.step c s e he
      have hex' : ∃ j, s.child j ≠ .idle := by
        apply hh.some
        intro hp
        have hb := before_can hi hp hcan
        exact he hb
      obtain ⟨l, h1, h2⟩ := h.front hex'
      refine ⟨l ++ m, by rw [h1, k1, List.append_assoc], fun j hj => ?_⟩
      rcases List.mem_append.1 hj with hj | hj
      · exact k3 j (h2 j hj)
      · exact k2 j hj
  · intro j hj
    have hs := step_sim hi hu hcan
    cases e with
    | ready i o d =>
      have h1 := (hs.waiting j).1 hj
      rw [(record_frame ..).1] at h1
      have : s.child j = .waiting := by
        simp only [upd_apply] at h1; split at h1 <;> simp_all
      simp [h.waiting j this]
    | thrown i x d =>
      have h1 := (hs.waiting j).1 hj
      rw [(recordThrown_frame ..).1] at h1
      have : s.child j = .waiting := by
        simp only [upd_apply] at h1; split at h1 <;> simp_all
      simp [h.waiting j this]
    | fin i o =>
      have h1 := (hs.waiting j).1 hj
      rw [(record_frame ..).1] at h1
      have : s.child j = .waiting := by
        simp only [upd_apply] at h1; split at h1 <;> simp_all
      simp [h.waiting j this]
    | notReady i =>
      have h1 := (hs.waiting j).1 hj
      simp only [upd_apply] at h1
      split at h1
      · rename_i hji; subst hji; simp
      · simp [h.waiting j h1]
    | txn i =>
      have h1 := (hs.waiting j).1 hj
      have : s.child j = .waiting := by split at h1 <;> exact h1
      simp [h.waiting j this]
    | begin => simp [h.waiting j ((hs.waiting j).1 hj)]
    | ret d => simp [h.waiting j ((hs.waiting j).1 hj)]
    | cancel ct => simp [h.waiting j ((hs.waiting j).1 hj)]
    | interrupt => simp [h.waiting j ((hs.waiting j).1 hj)]

theorem ub_of_run {c : Cfg} {pre post : List Ev} (hu : (St.run c (pre ++ post)).ub = false) : (St.run c pre).ub = false := by
  by_cases h : (St.run c pre).ub = true
  · have := steps_ub (c := c) post h
    rw [St.run, St.steps, List.foldl_append] at hu
    exact absurd (hu.symm.trans this) (by simp)
  · simpa using h

theorem legal_append {c : Cfg} : ∀ {pre post : List Ev} {s : St}, Legal c s (pre ++ post) →
    Legal c s pre ∧ Legal c (s.steps c pre) post
  | [], _, _, h => ⟨trivial, h⟩
  | _ :: _, _, _, h => ⟨⟨h.1, (legal_append h.2).1⟩, (legal_append h.2).2⟩

theorem Front.steps {c : Cfg} (hc : c.Ok) : ∀ (es pre : List Ev) {g nc : Bool} {s : St}, All c g nc s pre →
    Front c s pre → Legal c s es → (s.steps c es).ub = false → Front c (s.steps c es) (pre ++ es)
  | [], pre, _, _, _, _, hf, _, _ => by rw [List.append_nil]; exact hf
  | e :: es, pre, g, nc, s, h, hf, hl, hu => by
    have hu1 : (s.step c e).ub = false := by
      by_cases hx : (s.step c e).ub = true
      · have := steps_ub (c := c) es hx
        rw [show St.steps c (s.step c e) es = St.steps c s (e :: es) from rfl, hu] at this
        simp at this
      · simpa using hx
    have h1 := (h.step hc hl.1).resolve_left (by simp [hu1])
    have := Front.steps hc es (pre ++ [e]) h1 (hf.step h.inv h.hist h.ub hl.1 hu1) hl.2 hu
    rwa [List.append_assoc] at this

theorem Front.run {c : Cfg} (hc : c.Ok) {es : List Ev} (hl : Legal c {} es) (hu : (St.run c es).ub = false) :
    Front c (St.run c es) es := Front.steps hc es [] (All.init c) (Front.init c) hl hu

/-- When the behaviour becomes undefined no awaitable is being asked. -/
theorem ub_head {c : Cfg} {s : St} {e : Ev} (hi : Inv c s s.tags) (hu : s.ub = false) (hcan : s.can c e = true)
    (hu2 : (s.step c e).ub = true) (i : Nat) : (s.step c e).stack.head? ≠ some (.asking i) ∧
      (s.step c e).stack.head? ≠ some (.starting i) := by
  unfold St.step at hu2 ⊢
  rw [if_neg (by simp [hu, hcan])] at hu2 ⊢
  cases e with
  | begin =>
    have hp : s.phase = .before := by simpa [St.can] using hcan
    have hb : s.stack = [] := by simpa [St.tags] using (hi.before hp).2.1
    dsimp only at hu2 ⊢
    split
    · simp [hb]
    · rename_i hn
      rw [if_neg hn, (Shape.startNext c _ (cur := .loop) rfl).ub] at hu2
      exact absurd (hu.symm.trans hu2) (by simp)
  | ready i o d => rw [(Shape.complete ..).ub] at hu2; exact absurd (hu.symm.trans hu2) (by simp)
  | notReady i => exact absurd (hu.symm.trans hu2) (by simp)
  | thrown i x d => rw [(Shape.thrown ..).ub] at hu2; exact absurd (hu.symm.trans hu2) (by simp)
  | fin i o => rw [(Shape.complete ..).ub] at hu2; exact absurd (hu.symm.trans hu2) (by simp)
  | txn i =>
    dsimp only at hu2
    split at hu2
    · rw [(Shape.contIntr ..).ub] at hu2; exact absurd (hu.symm.trans hu2) (by simp)
    · exact absurd (hu.symm.trans hu2) (by simp)
  | cancel ct => rw [(Shape.contEmit ..).ub] at hu2; exact absurd (hu.symm.trans hu2) (by simp)
  | interrupt => rw [(Shape.contIntr ..).ub] at hu2; exact absurd (hu.symm.trans hu2) (by simp)
  | ret d =>
    cases hs : s.stack with
    | nil => simp [St.can, hs] at hcan
    | cons f rest =>
      cases f with
      | asking k => simp [St.can, hs] at hcan
      | starting k =>
        simp only [hs] at hu2
        rw [(Shape.afterStart c _ _ _ (cur := .loop) rfl).ub] at hu2
        exact absurd (hu.symm.trans hu2) (by simp)
      | intr k co since =>
        simp only [hs] at hu2 ⊢
        split
        · simp
        · rename_i h0
          rw [if_neg h0, (Shape.contIntr ..).ub] at hu2
          exact absurd (hu.symm.trans hu2) (by simp)
      | emit k co ct since =>
        simp only [hs] at hu2 ⊢
        split
        · simp
        · rename_i h0
          rw [if_neg h0, (Shape.contEmit ..).ub] at hu2
          exact absurd (hu.symm.trans hu2) (by simp)

theorem step_of_ub {c : Cfg} {s : St} (hu : s.ub = true) (e : Ev) : s.step c e = s := by
  unfold St.step; rw [if_pos (by simp [hu])]

theorem steps_of_ub {c : Cfg} {s : St} (hu : s.ub = true) : ∀ es : List Ev, s.steps c es = s
  | [] => rfl
  | e :: es => by
    show St.steps c (s.step c e) es = s
    rw [step_of_ub hu]; exact steps_of_ub hu es

theorem steps_ub_head {c : Cfg} (hc : c.Ok) (i : Nat) : ∀ (es pre : List Ev) {g nc : Bool} {s : St}, All c g nc s pre →
    Legal c s es → (s.steps c es).ub = true → (s.steps c es).stack.head? ≠ some (.asking i) ∧
      (s.steps c es).stack.head? ≠ some (.starting i)
  | [], _, _, _, _, h, _, hu => absurd (h.ub.symm.trans hu) (by simp)
  | e :: es, pre, g, nc, s, h, hl, hu => by
    rcases h.step hc hl.1 with h1 | h1
    · have := ub_head h.inv h.ub hl.1 h1 i
      rw [show St.steps c s (e :: es) = St.steps c (s.step c e) es from rfl, steps_of_ub h1]
      exact this
    · exact steps_ub_head hc i es (pre ++ [e]) h1 hl.2 hu

/-- Who is being asked is asked in a defined state. -/
theorem defined_of_head {c : Cfg} (hc : c.Ok) {es : List Ev} (hl : Legal c {} es) {i : Nat}
    (hs : (St.run c es).stack.head? = some (.asking i) ∨ (St.run c es).stack.head? = some (.starting i)) :
    (St.run c es).ub = false := by
  by_cases hu : (St.run c es).ub = true
  · have := steps_ub_head hc i es [] (All.init c) hl hu
    rcases hs with h | h
    · exact absurd h this.1
    · exact absurd h this.2
  · simpa using hu

end Cobalt.Comb
