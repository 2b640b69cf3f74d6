import Verif.Comb.InvStep
/-! How the results relate to the history. -/
namespace Cobalt.Comb

/-- The awaitable of the child has completed. -/
def CS.ended : CS → Bool
  | .running | .finished => true
  | _ => false

/-- The code after the outcome of a child was recorded changes no results, and no
child's awaitable starts or completes. -/
structure Sim (s t : St) : Prop where
  res : t.res = s.res
  err : t.err = s.err
  index : t.index = s.index
  result : t.result = s.result
  ended : ∀ i, (t.child i).ended = (s.child i).ended
  waiting : ∀ i, t.child i = .waiting ↔ s.child i = .waiting
  idle : ∀ i, s.child i ≠ .idle → t.child i ≠ .idle

theorem Sim.refl (s : St) : Sim s s := ⟨rfl, rfl, rfl, rfl, fun _ => rfl, fun _ => Iff.rfl, fun _ h => h⟩

theorem Sim.trans {s t u : St} (h : Sim s t) (k : Sim t u) : Sim s u :=
  ⟨k.res.trans h.res, k.err.trans h.err, k.index.trans h.index, k.result.trans h.result,
    fun i => (k.ended i).trans (h.ended i), fun i => (k.waiting i).trans (h.waiting i),
    fun i hi => k.idle i (h.idle i hi)⟩

theorem Sim.scanEmit (c : Cfg) (s : St) (k : Nat) (co : Cont) (ct since : Nat) :
    Sim s (St.scanEmit c s k co ct since).1 := by
  unfold St.scanEmit; split <;> exact ⟨rfl, rfl, rfl, rfl, fun _ => rfl, fun _ => Iff.rfl, fun _ h => h⟩

theorem Sim.scanIntr (c : Cfg) (s : St) (k : Nat) (co : Cont) (since : Nat) :
    Sim s (St.scanIntr c s k co since).1 := by
  unfold St.scanIntr; split <;> exact ⟨rfl, rfl, rfl, rfl, fun _ => rfl, fun _ => Iff.rfl, fun _ h => h⟩

theorem Sim.endStart2 (s : St) : Sim s s.endStart2 := by
  unfold St.endStart2; split <;> exact ⟨rfl, rfl, rfl, rfl, fun _ => rfl, fun _ => Iff.rfl, fun _ h => h⟩

theorem Sim.endStart (c : Cfg) (s : St) : Sim s (s.endStart c) := by
  unfold St.endStart
  split
  · dsimp only
    split
    · exact Sim.scanEmit ..
    · exact (Sim.scanEmit ..).trans (Sim.endStart2 _)
  · exact Sim.endStart2 _

theorem Sim.startNext {c : Cfg} {s : St} (h : ∀ i ∈ s.todo, s.child i = .idle) : Sim s (s.startNext c) := by
  unfold St.startNext
  split
  · exact Sim.endStart ..
  · rename_i i rest ht
    have hi := h i (by rw [ht]; simp)
    refine ⟨rfl, rfl, rfl, rfl, fun j => ?_, fun j => ?_, fun j h => ?_⟩
    · simp only [upd_apply]
      by_cases hj : j = i <;> simp [hj, hi, CS.ended]
    · simp only [upd_apply]
      by_cases hj : j = i <;> simp [hj, hi]
    · simp only [upd_apply]
      by_cases hj : j = i <;> simp [hj, h]

theorem Sim.afterStart {c : Cfg} {s : St} (h : ∀ i ∈ s.todo, s.child i = .idle) (i : Nat) (d : Bool) :
    Sim s (s.afterStart c i d) := by
  unfold St.afterStart
  split
  · split
    · split
      · exact ⟨rfl, rfl, rfl, rfl, fun _ => rfl, fun _ => Iff.rfl, fun _ h => h⟩
      · exact Sim.startNext h
    · dsimp only
      generalize (if s.child i = .finished then (if s.off i then d else true) else false) = b
      cases b
      · exact Sim.startNext h
      · exact Sim.endStart ..
  · exact Sim.startNext h

theorem Sim.finish {s : St} {i : Nat} (h : s.child i = .running) : Sim s (s.finish i) := by
  unfold St.finish
  dsimp only
  split
  all_goals
    refine ⟨rfl, rfl, rfl, rfl, fun j => ?_, fun j => ?_, fun j h' => ?_⟩
    · simp only [upd_apply]
      by_cases hj : j = i <;> simp [hj, h, CS.ended]
    · simp only [upd_apply]
      by_cases hj : j = i <;> simp [hj, h]
    · simp only [upd_apply]
      by_cases hj : j = i <;> simp [hj, h']

theorem finish_todo (s : St) (i : Nat) : (s.finish i).todo = s.todo := by
  unfold St.finish; dsimp only; split <;> rfl

/-- What the code needs to know to be harmless. -/
structure Calm (s : St) (co : Cont) : Prop where
  todo : ∀ i ∈ s.todo, s.child i = .idle
  run : ∀ i b, co = .finish i b → s.child i = .running

theorem Calm.of_inv {c : Cfg} {s : St} {co : Cont} {T : List Tag} (h : Inv c s (.co co :: T)) : Calm s co :=
  ⟨fun i hi => (h.todo i hi).1, fun i b hco => (h.running i).2 (by subst hco; simp)⟩

theorem Calm.congr {s t : St} {co : Cont} (h : Calm s co) (h1 : t.child = s.child) (h2 : t.todo = s.todo) :
    Calm t co := ⟨by rw [h1, h2]; exact h.todo, by rw [h1]; exact h.run⟩

theorem Sim.done {c : Cfg} {s : St} {co : Cont} (h : Calm s co) (d : Bool) : Sim s (s.done c co d) := by
  unfold St.done
  split
  · rename_i i b
    have hr := h.run i b rfl
    dsimp only
    split
    · refine (Sim.finish hr).trans (Sim.afterStart ?_ _ _)
      intro j hj
      rw [finish_todo] at hj
      have hj := h.todo j hj
      have hji : j ≠ i := by intro e; rw [e, hr] at hj; simp at hj
      unfold St.finish; dsimp only; split <;> simp [hji, hj]
    · exact Sim.finish hr
  · exact Sim.refl _
  · exact Sim.endStart2 _
  · exact Sim.refl _

theorem Sim.contEmit {c : Cfg} {s : St} {co : Cont} (h : Calm s co) (k ct since : Nat) (d : Bool) :
    Sim s (s.contEmit c k co ct since d) := by
  unfold St.contEmit
  dsimp only
  split
  · exact Sim.scanEmit ..
  · refine (Sim.scanEmit ..).trans (Sim.done ?_ d)
    obtain ⟨-, e2, -, -, e5, -⟩ := scanEmit_tags (c := c) (s := s) (k := k) (co := co) (ct := ct) (since := since)
    exact h.congr e2 e5

theorem Sim.contIntr {c : Cfg} {s : St} {co : Cont} (h : Calm s co) (k since : Nat) (d : Bool) :
    Sim s (s.contIntr c k co since d) := by
  unfold St.contIntr
  dsimp only
  obtain ⟨-, e2, -, -, e5, -⟩ := scanIntr_tags (c := c) (s := s) (k := k) (co := co) (since := since)
  split
  · exact Sim.scanIntr ..
  · split
    · exact Sim.scanIntr ..
    · exact (Sim.scanIntr ..).trans (Sim.contEmit (h.congr e2 e5) _ _ _ d)

/-- What is recorded about the outcome of child `i`, before anything else happens. -/
def St.record (c : Cfg) (s : St) (i : Nat) (o : Out) (ready : Bool) : St :=
  let s := { s with child := upd s.child i .running }
  match c.kind with
  | .gather => { s with res := upd s.res i (some o) }
  | .join =>
    match o with
    | .ok v => { s with res := upd s.res i (some (.ok v)) }
    | .err e => { s with err := if s.err = none then some e else s.err }
  | .race =>
    let s := if ready then s.raceReady c i o else s.raceSuspended c i o
    { s with sig := upd s.sig i false }

/-- The same when starting it threw. -/
def St.recordThrown (c : Cfg) (s : St) (i : Nat) (e : Nat) : St :=
  let s := { s with child := upd s.child i .running }
  match c.kind with
  | .gather => { s with res := upd s.res i (some (.err e)) }
  | .join => { s with err := if s.err = none then some e else s.err }
  | .race =>
    let s := if s.index = none then { s with index := some i } else s
    if s.index = some i then { s with err := some e } else s

theorem record_frame (c : Cfg) (s : St) (i : Nat) (o : Out) (b : Bool) :
    (s.record c i o b).child = upd s.child i .running ∧ (s.record c i o b).todo = s.todo := by
  unfold St.record
  have h1 := raceReady_frame c { s with child := upd s.child i .running } i o
  have h2 := raceSuspended_frame c { s with child := upd s.child i .running } i o
  dsimp only at h1 h2 ⊢
  cases c.kind
  · exact ⟨rfl, rfl⟩
  · cases o <;> exact ⟨rfl, rfl⟩
  · cases b
    · exact ⟨h2.1, h2.2.2.2.1⟩
    · exact ⟨h1.1, h1.2.2.2.1⟩

theorem recordThrown_frame (c : Cfg) (s : St) (i : Nat) (e : Nat) :
    (s.recordThrown c i e).child = upd s.child i .running ∧ (s.recordThrown c i e).todo = s.todo := by
  unfold St.recordThrown
  dsimp only
  cases c.kind
  · exact ⟨rfl, rfl⟩
  · exact ⟨rfl, rfl⟩
  · simp only
    split <;> split <;> exact ⟨rfl, rfl⟩

theorem Sim.complete {c : Cfg} {s : St} {i : Nat} {o : Out} {b d : Bool}
    (h : Calm { s with child := upd s.child i .running } (.finish i b)) :
    Sim (s.record c i o b) (s.complete c i o b d) := by
  have hf := record_frame c s i o b
  have hc : Calm (s.record c i o b) (.finish i b) := h.congr hf.1 hf.2
  unfold St.complete St.record at *
  dsimp only at *
  cases hk : c.kind <;> simp only [hk] at hc ⊢
  · exact Sim.done hc d
  · cases o
    · exact Sim.done hc d
    · exact Sim.contEmit hc _ _ _ d
  · exact Sim.contIntr hc _ _ d

theorem Sim.thrown {c : Cfg} {s : St} {i : Nat} {e : Nat} {d : Bool}
    (h : Calm { s with child := upd s.child i .running } (.finish i true)) :
    Sim (s.recordThrown c i e) (s.thrown c i e d) := by
  have hf := recordThrown_frame c s i e
  have hc : Calm (s.recordThrown c i e) (.finish i true) := h.congr hf.1 hf.2
  unfold St.thrown St.recordThrown at *
  dsimp only at *
  cases hk : c.kind <;> simp only [hk] at hc ⊢
  · exact Sim.done hc d
  · exact Sim.contEmit hc _ _ _ d
  · exact Sim.done hc d

/-- One step, as far as results are concerned. -/
theorem step_sim {c : Cfg} {s : St} (h : Inv c s s.tags) {e : Ev} (hu : s.ub = false) (hcan : s.can c e = true) :
    match e with
    | .ready i o _ => Sim (St.record c { s with stack := s.stack.tail } i o true) (s.step c e)
    | .thrown i x _ => Sim (St.recordThrown c { s with stack := s.stack.tail } i x) (s.step c e)
    | .fin i o => Sim (s.record c i o false) (s.step c e)
    | .txn i => Sim (if s.index = none then { s with index := some i } else s) (s.step c e)
    | .notReady i => Sim { s with child := upd s.child i .waiting } (s.step c e)
    | _ => Sim s (s.step c e) := by
  cases e with
  | begin =>
    unfold St.step; rw [if_neg (by simp [hu, hcan])]
    dsimp only
    split
    · exact ⟨rfl, rfl, rfl, rfl, fun _ => rfl, fun _ => Iff.rfl, fun _ h => h⟩
    · have hp : s.phase = .before := by simpa [St.can] using hcan
      have h4 := (h.before hp).2.2.2
      refine Sim.trans ?_ (Sim.startNext (s := { s with phase := .starting, todo := c.order }) (fun i _ => h4 i))
      exact ⟨rfl, rfl, rfl, rfl, fun _ => rfl, fun _ => Iff.rfl, fun _ h => h⟩
  | ready i o d =>
    unfold St.step; rw [if_neg (by simp [hu, hcan])]
    have hh : s.stack.head? = some (.asking i) := by simpa [St.can] using hcan
    have ht := tags_of_head hh
    rw [ht] at h
    refine Sim.complete ?_
    exact Calm.of_inv (Inv.toRunning (s := { s with stack := s.stack.tail }) (c := c)
      (T := s.stack.tail.map Frame.tag) (Or.inr (Or.inl ⟨rfl, h.congr rfl rfl rfl rfl rfl⟩)))
  | notReady i =>
    unfold St.step; rw [if_neg (by simp [hu, hcan])]
    exact ⟨rfl, rfl, rfl, rfl, fun _ => rfl, fun _ => Iff.rfl, fun _ h => h⟩
  | thrown i x d =>
    unfold St.step; rw [if_neg (by simp [hu, hcan])]
    refine Sim.thrown ?_
    simp only [St.can, Bool.or_eq_true, beq_iff_eq, Bool.and_eq_true] at hcan
    rcases hcan with hh | ⟨hh, hw⟩
    · have ht := tags_of_head hh
      rw [ht] at h
      exact Calm.of_inv (Inv.toRunning (s := { s with stack := s.stack.tail }) (c := c)
        (T := s.stack.tail.map Frame.tag) (Or.inr (Or.inl ⟨rfl, h.congr rfl rfl rfl rfl rfl⟩)))
    · have ht := tags_of_head hh
      rw [ht] at h
      exact Calm.of_inv (Inv.toRunning (s := { s with stack := s.stack.tail }) (c := c)
        (T := s.stack.tail.map Frame.tag) (Or.inr (Or.inr ⟨rfl, hw, h.congr rfl rfl rfl rfl rfl⟩)))
  | fin i o =>
    unfold St.step; rw [if_neg (by simp [hu, hcan])]
    simp only [St.can, Bool.and_eq_true, beq_iff_eq] at hcan
    exact Sim.complete (Calm.of_inv (Inv.toRunning (Or.inl ⟨rfl, hcan.1, h⟩)))
  | txn i =>
    unfold St.step; rw [if_neg (by simp [hu, hcan])]
    dsimp only
    split
    · refine Sim.trans ?_ (Sim.contIntr (s := { s with sig := upd s.sig i false, index := some i }) (co := .txn i)
        ⟨fun j hj => (h.todo j hj).1, by simp⟩ _ _ _)
      exact ⟨rfl, rfl, rfl, rfl, fun _ => rfl, fun _ => Iff.rfl, fun _ h => h⟩
    · exact Sim.refl _
  | ret d =>
    unfold St.step; rw [if_neg (by simp [hu, hcan])]
    dsimp only
    split
    · exact Sim.refl _
    · exact Sim.refl _
    · rename_i k rest hs
      refine Sim.trans ?_ (Sim.afterStart (s := { s with stack := rest }) (fun j hj => (h.todo j hj).1) _ _)
      exact ⟨rfl, rfl, rfl, rfl, fun _ => rfl, fun _ => Iff.rfl, fun _ h => h⟩
    · rename_i k co since rest hs
      have ht : s.tags = .co co :: rest.map Frame.tag := by simp [St.tags, hs, Frame.tag]
      rw [ht] at h
      split
      · exact ⟨rfl, rfl, rfl, rfl, fun _ => rfl, fun _ => Iff.rfl, fun _ h => h⟩
      · refine Sim.trans ?_ (Sim.contIntr (s := { s with stack := rest }) ((Calm.of_inv h).congr rfl rfl) _ _ _)
        exact ⟨rfl, rfl, rfl, rfl, fun _ => rfl, fun _ => Iff.rfl, fun _ h => h⟩
    · rename_i k co ct since rest hs
      have ht : s.tags = .co co :: rest.map Frame.tag := by simp [St.tags, hs, Frame.tag]
      rw [ht] at h
      split
      · exact ⟨rfl, rfl, rfl, rfl, fun _ => rfl, fun _ => Iff.rfl, fun _ h => h⟩
      · refine Sim.trans ?_ (Sim.contEmit (s := { s with stack := rest }) ((Calm.of_inv h).congr rfl rfl) _ _ _ _)
        exact ⟨rfl, rfl, rfl, rfl, fun _ => rfl, fun _ => Iff.rfl, fun _ h => h⟩
  | cancel ct =>
    unfold St.step; rw [if_neg (by simp [hu, hcan])]
    exact Sim.contEmit ⟨fun j hj => (h.todo j hj).1, by simp⟩ _ _ _ _
  | interrupt =>
    unfold St.step; rw [if_neg (by simp [hu, hcan])]
    exact Sim.contIntr ⟨fun j hj => (h.todo j hj).1, by simp⟩ _ _ _

end Cobalt.Comb
