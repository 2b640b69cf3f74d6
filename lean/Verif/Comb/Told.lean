import Verif.Comb.LoopsStep
/-! Which awaitables the loops of a race have reached: for the exactness of C19 and C21. -/
namespace Cobalt.Comb

/-- The race calls `cancel_all` (race.hpp:135-141): an awaitable completes, or begins the first
transaction. -/
def calls (pre : List Ev) : Ev → Bool
  | .fin _ _ => true
  | .ready _ _ _ => true
  | .txn _ => (winner pre).isNone
  | _ => false

/-- `cancel_all` was called after awaitable `j` was suspended. -/
def Reached (es : List Ev) (j : Nat) : Prop :=
  ∃ pre e post, es = pre ++ e :: post ∧ .notReady j ∈ pre ∧ calls pre e = true

theorem reached_snoc {es : List Ev} {e : Ev} {j : Nat} :
    Reached (es ++ [e]) j ↔ Reached es j ∨ (.notReady j ∈ es ∧ calls es e = true) := by
  constructor
  · rintro ⟨pre, x, post, h1, h2, h3⟩
    rcases List.eq_nil_or_concat post with rfl | ⟨post', y, rfl⟩
    · obtain ⟨h4, h5⟩ := List.append_inj' h1 rfl
      simp only [List.cons.injEq, and_true] at h5
      subst h4 h5
      exact Or.inr ⟨h2, h3⟩
    · have h1 : es ++ [e] = (pre ++ x :: post') ++ [y] := by simpa using h1
      obtain ⟨h4, -⟩ := List.append_inj' h1 rfl
      exact Or.inl ⟨pre, x, post', h4, h2, h3⟩
  · rintro (⟨pre, x, post, h1, h2, h3⟩ | ⟨h1, h2⟩)
    · exact ⟨pre, x, post ++ [e], by simp [h1], h2, h3⟩
    · exact ⟨es, e, [], rfl, h1, h2⟩

theorem not_reached_nil {j : Nat} : ¬ Reached [] j := by
  rintro ⟨pre, e, post, h, -⟩
  simp at h

theorem Reached.asked {es : List Ev} {j : Nat} (h : Reached es j) : .notReady j ∈ es := by
  obtain ⟨pre, e, post, rfl, h2, -⟩ := h
  exact List.mem_append_left _ h2

/-- Who has been suspended. -/
structure Asked (es : List Ev) (s : St) : Prop where
  waiting : ∀ j, s.child j = .waiting → .notReady j ∈ es
  started : ∀ j, .notReady j ∈ es → s.child j = .waiting ∨ (s.child j).ended = true

theorem Asked.sim {es : List Ev} {s t : St} (h : Asked es s) (k : Sim s t) : Asked es t :=
  ⟨fun j hj => h.waiting j ((k.waiting j).1 hj), fun j hj => by
    rw [k.waiting, k.ended]; exact h.started j hj⟩

theorem Asked.snoc {es : List Ev} {s : St} (h : Asked es s) {e : Ev} (he : ∀ i, e ≠ .notReady i) :
    Asked (es ++ [e]) s :=
  ⟨fun j hj => List.mem_append_left _ (h.waiting j hj), fun j hj => by
    rw [List.mem_append, List.mem_singleton] at hj
    exact hj.elim (h.started j) (fun h => absurd h.symm (he j))⟩

theorem Asked.running {es : List Ev} {s t : St} (h : Asked es s) {i : Nat} (ht : t.child = upd s.child i .running) :
    Asked es t := by
  constructor
  · intro j hj
    rw [ht] at hj
    by_cases hji : j = i
    · simp [hji] at hj
    · exact h.waiting j (by simpa [hji] using hj)
  · intro j hj
    rw [ht]
    by_cases hji : j = i
    · right; simp [hji, CS.ended]
    · simpa [hji] using h.started j hj

theorem Asked.step {c : Cfg} {es : List Ev} {s : St} (hi : Inv c s s.tags) (h : Asked es s) {e : Ev}
    (hu : s.ub = false) (hcan : s.can c e = true) : Asked (es ++ [e]) (s.step c e) := by
  have hs := step_sim hi hu hcan
  cases e <;> simp only at hs
  case ready i o d =>
    exact (((h.running (t := St.record c { s with stack := s.stack.tail } i o true)
      (record_frame c { s with stack := s.stack.tail } i o true).1).snoc (by simp)).sim hs)
  case thrown i x d =>
    exact (((h.running (t := St.recordThrown c { s with stack := s.stack.tail } i x)
      (recordThrown_frame c { s with stack := s.stack.tail } i x).1).snoc (by simp)).sim hs)
  case fin i o =>
    exact (((h.running (record_frame c s i o false).1).snoc (by simp)).sim hs)
  case txn i =>
    refine Asked.sim ((Asked.snoc (s := if s.index = none then { s with index := some i } else s) ?_ (by simp))) hs
    split
    · exact ⟨h.waiting, h.started⟩
    · exact h
  case notReady i =>
    refine Asked.sim (s := { s with child := upd s.child i .waiting }) ⟨fun j hj => ?_, fun j hj => ?_⟩ hs
    · by_cases hji : j = i
      · simp [hji]
      · exact List.mem_append_left _ (h.waiting j (by simpa [hji] using hj))
    · by_cases hji : j = i
      · left; simp [hji]
      · rw [List.mem_append, List.mem_singleton] at hj
        rcases hj with hj | hj
        · simpa [hji] using h.started j hj
        · simp only [Ev.notReady.injEq] at hj; exact absurd hj hji
  all_goals exact (h.snoc (by simp)).sim hs

/-- A loop of the race itself is at work. -/
def Act.own : Act → Prop
  | .other => False
  | .intr _ co _ => co ≠ .ext
  | .emit _ co _ _ => co ≠ .ext

/-- It will come to `j`, and set its signal to null. -/
def Act.ahead (j : Nat) : Act → Prop
  | .other => False
  | .intr _ co _ => co ≠ .ext
  | .emit p co _ _ => co ≠ .ext ∧ p ≤ j

/-- It will come to `j`, and interrupt it. -/
def Act.aheadI (j : Nat) : Act → Prop
  | .intr p co _ => co ≠ .ext ∧ p ≤ j
  | _ => False

/-- `T`: the awaitables reached by a call of `cancel_all`. -/
structure Rch (c : Cfg) (T : Nat → Prop) (s : St) (fs : List Act) : Prop where
  sig : ∀ j, T j → s.child j = .waiting → s.sig j = true → ∃ a ∈ fs, a.ahead j
  intd : ∀ j, T j → s.child j = .waiting → c.intr j = true → j ∈ s.intd ∨ ∃ a ∈ fs, a.aheadI j
  new : ∀ j, ¬ T j → s.child j = .waiting → s.sig j = true
  all : (∃ a ∈ fs, a.own) → ∀ j, s.child j = .waiting → T j
  working : ∀ j, s.child j = .waiting → s.working j = true ∧ j < c.n

/-- Code that touches neither signals nor interruptions. -/
theorem Rch.calm {c : Cfg} {T : Nat → Prop} {s t : St} {fs : List Act} (h : Rch c T s fs)
    (h1 : ∀ j, t.child j = .waiting → s.child j = .waiting ∧ t.working j = s.working j ∧ t.sig j = s.sig j)
    (h2 : t.intd = s.intd) : Rch c T t fs := by
  constructor
  · intro j hT hj hs
    obtain ⟨a1, -, a3⟩ := h1 j hj
    exact h.sig j hT a1 (by rw [← a3]; exact hs)
  · intro j hT hj hi
    rw [h2]; exact h.intd j hT (h1 j hj).1 hi
  · intro j hT hj
    rw [(h1 j hj).2.2]; exact h.new j hT (h1 j hj).1
  · intro ha j hj; exact h.all ha j (h1 j hj).1
  · intro j hj; rw [(h1 j hj).2.1]; exact h.working j (h1 j hj).1

theorem Rch.pushOther {c : Cfg} {T : Nat → Prop} {s : St} {fs : List Act} (h : Rch c T s fs) :
    Rch c T s (.other :: fs) := by
  constructor
  · intro j hT hj hs
    obtain ⟨a, ha, hb⟩ := h.sig j hT hj hs
    exact ⟨a, List.mem_cons_of_mem _ ha, hb⟩
  · intro j hT hj hi
    rcases h.intd j hT hj hi with h1 | ⟨a, ha, hb⟩
    · exact Or.inl h1
    · exact Or.inr ⟨a, List.mem_cons_of_mem _ ha, hb⟩
  · exact h.new
  · rintro ⟨a, ha, hb⟩
    rw [List.mem_cons] at ha
    rcases ha with rfl | ha
    · exact absurd hb (by simp [Act.own])
    · exact h.all ⟨a, ha, hb⟩
  · exact h.working

/-- An action that does nothing for the race itself. -/
theorem Rch.drop {c : Cfg} {T : Nat → Prop} {s : St} {fs : List Act} {x : Act} (h : Rch c T s (x :: fs))
    (hx : ¬ x.own) : Rch c T s fs := by
  have ho : ∀ j, ¬ x.ahead j ∧ ¬ x.aheadI j := by
    intro j
    cases x with
    | other => simp [Act.ahead, Act.aheadI]
    | intr p co n => simp_all [Act.ahead, Act.aheadI, Act.own]
    | emit p co ct n => simp_all [Act.ahead, Act.aheadI, Act.own]
  constructor
  · intro j hT hj hs
    obtain ⟨a, ha, hb⟩ := h.sig j hT hj hs
    rw [List.mem_cons] at ha
    rcases ha with rfl | ha
    · exact absurd hb (ho j).1
    · exact ⟨a, ha, hb⟩
  · intro j hT hj hi
    rcases h.intd j hT hj hi with h1 | ⟨a, ha, hb⟩
    · exact Or.inl h1
    · rw [List.mem_cons] at ha
      rcases ha with rfl | ha
      · exact absurd hb (ho j).2
      · exact Or.inr ⟨a, ha, hb⟩
  · exact h.new
  · rintro ⟨a, ha, hb⟩
    exact h.all ⟨a, List.mem_cons_of_mem _ ha, hb⟩
  · exact h.working

/-- A loop for somebody outside begins. -/
theorem Rch.push {c : Cfg} {T : Nat → Prop} {s : St} {fs : List Act} {x : Act} (h : Rch c T s fs)
    (hx : ¬ x.own) : Rch c T s (x :: fs) := by
  constructor
  · intro j hT hj hs
    obtain ⟨a, ha, hb⟩ := h.sig j hT hj hs
    exact ⟨a, List.mem_cons_of_mem _ ha, hb⟩
  · intro j hT hj hi
    rcases h.intd j hT hj hi with h1 | ⟨a, ha, hb⟩
    · exact Or.inl h1
    · exact Or.inr ⟨a, List.mem_cons_of_mem _ ha, hb⟩
  · exact h.new
  · rintro ⟨a, ha, hb⟩
    rw [List.mem_cons] at ha
    rcases ha with rfl | ha
    · exact absurd hb hx
    · exact h.all ⟨a, ha, hb⟩
  · exact h.working

theorem Rch.scanEmit {c : Cfg} {T : Nat → Prop} {s : St} {k ct since : Nat} {co : Cont}
    (h : Rch c T s (.emit k co ct since :: s.acts)) :
    Rch c T (s.scanEmit c k co ct since).1 (s.scanEmit c k co ct since).1.acts := by
  unfold St.scanEmit
  cases hx : St.next c.n k (fun j => s.sig j && s.child j == .waiting) with
  | some m =>
    obtain ⟨m1, m2, m3, m4⟩ := next_some hx
    dsimp only
    have hacts : St.acts { s with
        sig := if co = .ext then s.sig else fun x => if k ≤ x ∧ x ≤ m then false else s.sig x
        sent := (m, ct) :: s.sent
        stack := .emit m co ct since :: s.stack } = .emit (m + 1) co ct since :: s.acts := rfl
    rw [hacts]
    by_cases hco : co = .ext
    · simp only [if_pos hco]
      subst hco
      exact ((h.drop (by simp [Act.own])).push (x := .emit (m + 1) .ext ct since) (by simp [Act.own])).calm
        (fun j hj => ⟨hj, rfl, rfl⟩) rfl
    · simp only [if_neg hco]
      constructor
      · intro j hT hj hs
        dsimp only at hs
        split at hs
        · simp at hs
        · rename_i hr
          obtain ⟨a, ha, hb⟩ := h.sig j hT hj hs
          rw [List.mem_cons] at ha
          rcases ha with rfl | ha
          · simp only [Act.ahead] at hb
            exact ⟨_, List.mem_cons_self, hco, by omega⟩
          · exact ⟨a, List.mem_cons_of_mem _ ha, hb⟩
      · intro j hT hj hi
        rcases h.intd j hT hj hi with h1 | ⟨a, ha, hb⟩
        · exact Or.inl h1
        · rw [List.mem_cons] at ha
          rcases ha with rfl | ha
          · simp [Act.aheadI] at hb
          · exact Or.inr ⟨a, List.mem_cons_of_mem _ ha, hb⟩
      · intro j hT hj
        exact absurd (h.all ⟨_, List.mem_cons_self, hco⟩ j hj) hT
      · intro _ j hj
        exact h.all ⟨_, List.mem_cons_self, hco⟩ j hj
      · exact h.working
  | none =>
    have m4 := next_none hx
    dsimp only
    by_cases hco : co = .ext
    · simp only [if_pos hco]
      exact (h.drop (by simp [Act.own, hco])).calm (fun j hj => ⟨hj, rfl, rfl⟩) rfl
    · simp only [if_neg hco]
      constructor
      · intro j hT hj hs
        dsimp only at hs
        split at hs
        · simp at hs
        · rename_i hr
          obtain ⟨a, ha, hb⟩ := h.sig j hT hj hs
          rw [List.mem_cons] at ha
          rcases ha with rfl | ha
          · simp only [Act.ahead] at hb
            omega
          · exact ⟨a, ha, hb⟩
      · intro j hT hj hi
        rcases h.intd j hT hj hi with h1 | ⟨a, ha, hb⟩
        · exact Or.inl h1
        · rw [List.mem_cons] at ha
          rcases ha with rfl | ha
          · simp [Act.aheadI] at hb
          · exact Or.inr ⟨a, ha, hb⟩
      · intro j hT hj
        exact absurd (h.all ⟨_, List.mem_cons_self, hco⟩ j hj) hT
      · intro _ j hj
        exact h.all ⟨_, List.mem_cons_self, hco⟩ j hj
      · exact h.working

theorem Rch.scanIntr {c : Cfg} (hk : c.kind = .race) {T : Nat → Prop} {s : St} {k since : Nat} {co : Cont}
    (h : Rch c T s (.intr k co since :: s.acts)) :
    ((s.scanIntr c k co since).2 = true →
      Rch c T (s.scanIntr c k co since).1 (s.scanIntr c k co since).1.acts) ∧
    ((s.scanIntr c k co since).2 = false → (s.scanIntr c k co since).1 = s ∧
      (co = .ext → Rch c T s s.acts) ∧ (co ≠ .ext → ∀ ct n, Rch c T s (.emit 0 co ct n :: s.acts))) := by
  unfold St.scanIntr
  cases hx : St.next c.n k (s.hit c) with
  | some m =>
    obtain ⟨m1, m2, m3, m4⟩ := next_some hx
    refine ⟨fun _ => ?_, fun h => by simp at h⟩
    dsimp only
    have hacts : St.acts { s with intd := m :: s.intd, stack := .intr m co since :: s.stack } =
        .intr (m + 1) co since :: s.acts := rfl
    rw [hacts]
    constructor
    · intro j hT hj hs
      obtain ⟨a, ha, hb⟩ := h.sig j hT hj hs
      rw [List.mem_cons] at ha
      rcases ha with rfl | ha
      · exact ⟨_, List.mem_cons_self, hb⟩
      · exact ⟨a, List.mem_cons_of_mem _ ha, hb⟩
    · intro j hT hj hi
      rcases h.intd j hT hj hi with h1 | ⟨a, ha, hb⟩
      · exact Or.inl (List.mem_cons_of_mem _ h1)
      · rw [List.mem_cons] at ha
        rcases ha with rfl | ha
        · simp only [Act.aheadI] at hb
          by_cases hjm : j = m
          · left; rw [hjm]; exact List.mem_cons_self
          · by_cases hlt : j < m
            · have hf := m4 j hb.2 hlt
              simp only [St.hit, hk, hi, (h.working j hj).1] at hf
              simp at hf
            · exact Or.inr ⟨_, List.mem_cons_self, hb.1, by omega⟩
        · exact Or.inr ⟨a, List.mem_cons_of_mem _ ha, hb⟩
    · exact h.new
    · rintro ⟨a, ha, hb⟩ j hj
      rw [List.mem_cons] at ha
      rcases ha with rfl | ha
      · exact h.all ⟨_, List.mem_cons_self, hb⟩ j hj
      · exact h.all ⟨a, List.mem_cons_of_mem _ ha, hb⟩ j hj
    · exact h.working
  | none =>
    have m4 := next_none hx
    refine ⟨fun h => by simp at h, fun _ => ⟨rfl, fun hco => h.drop (by simp [Act.own, hco]), fun hco ct n => ?_⟩⟩
    constructor
    · intro j hT hj hs
      obtain ⟨a, ha, hb⟩ := h.sig j hT hj hs
      rw [List.mem_cons] at ha
      rcases ha with rfl | ha
      · exact ⟨_, List.mem_cons_self, hco, Nat.zero_le _⟩
      · exact ⟨a, List.mem_cons_of_mem _ ha, hb⟩
    · intro j hT hj hi
      rcases h.intd j hT hj hi with h1 | ⟨a, ha, hb⟩
      · exact Or.inl h1
      · rw [List.mem_cons] at ha
        rcases ha with rfl | ha
        · simp only [Act.aheadI] at hb
          have hf := m4 j hb.2 (h.working j hj).2
          simp only [St.hit, hk, hi, (h.working j hj).1] at hf
          simp at hf
        · exact Or.inr ⟨a, List.mem_cons_of_mem _ ha, hb⟩
    · exact h.new
    · intro _ j hj
      exact h.all ⟨_, List.mem_cons_self, hco⟩ j hj
    · exact h.working

theorem Rch.finish {c : Cfg} {T : Nat → Prop} {s : St} (h : Rch c T s s.acts) (i : Nat) :
    Rch c T (s.finish i) (s.finish i).acts := by
  rw [finish_acts]
  refine h.calm (fun j hj => ?_) (by unfold St.finish; dsimp only; split <;> rfl)
  have hji : j ≠ i := by
    intro e
    unfold St.finish at hj
    dsimp only at hj
    split at hj <;> simp [e] at hj
  unfold St.finish at hj ⊢
  dsimp only at hj ⊢
  split at hj <;> rename_i hp <;> simp only [hp, and_self, if_true, if_false] <;>
    simp_all

theorem Rch.endStart {c : Cfg} (hk : c.kind = .race) {T : Nat → Prop} {s : St} (h : Rch c T s s.acts) :
    Rch c T (s.endStart c) (s.endStart c).acts := by
  unfold St.endStart
  rw [if_neg (by simp [hk]), endStart2_acts]
  refine h.calm (fun j hj => ?_) (by unfold St.endStart2; split <;> rfl)
  unfold St.endStart2 at hj ⊢
  split at hj <;> simp_all

theorem Rch.startNext {c : Cfg} (hk : c.kind = .race) {T : Nat → Prop} {s : St} (h : Rch c T s s.acts) :
    Rch c T (s.startNext c) (s.startNext c).acts := by
  unfold St.startNext
  split
  · exact h.endStart hk
  · rename_i i rest _
    refine (h.pushOther.calm (fun j hj => ?_) rfl)
    have hji : j ≠ i := by intro e; simp [e] at hj
    simpa [hji] using hj

theorem Rch.afterStart {c : Cfg} (hk : c.kind = .race) {T : Nat → Prop} {s : St} (h : Rch c T s s.acts) (i : Nat)
    (d : Bool) : Rch c T (s.afterStart c i d) (s.afterStart c i d).acts := by
  unfold St.afterStart
  rw [hk]
  dsimp only
  split
  · split
    · exact h.calm (fun j hj => ⟨hj, rfl, rfl⟩) rfl
    · exact h.startNext hk
  · generalize (if s.child i = .finished then (if s.off i then d else true) else false) = b
    cases b
    · exact h.startNext hk
    · exact h.endStart hk

theorem Rch.done {c : Cfg} (hk : c.kind = .race) {T : Nat → Prop} {s : St} (h : Rch c T s s.acts) (co : Cont)
    (d : Bool) : Rch c T (s.done c co d) (s.done c co d).acts := by
  unfold St.done
  split
  · dsimp only
    split
    · exact (h.finish _).afterStart hk _ d
    · exact h.finish _
  · exact h
  · have := h.endStart hk
    unfold St.endStart at this
    rwa [if_neg (by simp [hk])] at this
  · exact h

theorem Rch.contEmit {c : Cfg} (hk : c.kind = .race) {T : Nat → Prop} {s : St} {k ct since : Nat} {co : Cont}
    (h : Rch c T s (.emit k co ct since :: s.acts)) (d : Bool) :
    Rch c T (s.contEmit c k co ct since d) (s.contEmit c k co ct since d).acts := by
  unfold St.contEmit
  dsimp only
  split
  · exact h.scanEmit
  · exact h.scanEmit.done hk co d

theorem Rch.contIntr {c : Cfg} (hk : c.kind = .race) {T : Nat → Prop} {s : St} {k since : Nat} {co : Cont}
    (h : Rch c T s (.intr k co since :: s.acts)) (d : Bool) :
    Rch c T (s.contIntr c k co since d) (s.contIntr c k co since d).acts := by
  unfold St.contIntr
  dsimp only
  obtain ⟨h1, h2⟩ := h.scanIntr hk
  split
  · rename_i hb; exact h1 hb
  · rename_i hb
    obtain ⟨e, h3, h4⟩ := h2 (by simpa using hb)
    rw [e]
    split
    · rename_i hco; exact h3 hco
    · rename_i hco; exact (h4 hco _ _).contEmit hk d

/-- `cancel_all` is called. -/
theorem Rch.call {c : Cfg} {T T' : Nat → Prop} {s t : St} {fs : List Act} (h : Rch c T s fs) {n : Nat} {co : Cont}
    (hco : co ≠ .ext) (hT : ∀ j, s.child j = .waiting → T' j)
    (hw : ∀ j, t.child j = .waiting → s.child j = .waiting ∧ t.working j = s.working j) :
    Rch c T' t (.intr 0 co n :: fs) := by
  constructor
  · intro j _ _ _; exact ⟨_, List.mem_cons_self, hco⟩
  · intro j _ _ _; exact Or.inr ⟨_, List.mem_cons_self, hco, Nat.zero_le _⟩
  · intro j hn hj; exact absurd (hT j (hw j hj).1) hn
  · intro _ j hj; exact hT j (hw j hj).1
  · intro j hj; rw [(hw j hj).2]; exact h.working j (hw j hj).1

theorem Rch.complete {c : Cfg} (hk : c.kind = .race) {T T' : Nat → Prop} {s : St} (h : Rch c T s s.acts)
    (hT : ∀ j, s.child j = .waiting → T' j) (i : Nat) (o : Out) (b d : Bool) :
    Rch c T' (s.complete c i o b d) (s.complete c i o b d).acts := by
  unfold St.complete
  rw [hk]
  dsimp only
  have key : ∀ t : St, t.child = upd s.child i .running → t.stack = s.stack → t.working = s.working →
      Rch c T' (St.contIntr c { t with sig := upd t.sig i false } 0 (.finish i b) t.intd.length d)
        (St.contIntr c { t with sig := upd t.sig i false } 0 (.finish i b) t.intd.length d).acts := by
    intro t h1 h2 h3
    refine Rch.contIntr hk ?_ d
    rw [show St.acts { t with sig := upd t.sig i false } = s.acts by simp [St.acts, h2]]
    refine h.call (by simp) hT (fun j hj => ?_)
    dsimp only at hj ⊢
    rw [h1] at hj
    rw [h3]
    by_cases hji : j = i
    · simp [hji] at hj
    · exact ⟨by simpa [hji] using hj, rfl⟩
  have f1 := raceReady_frame c { s with child := upd s.child i .running } i o
  have f2 := raceSuspended_frame c { s with child := upd s.child i .running } i o
  dsimp only at f1 f2
  cases b
  · exact key _ f2.1 f2.2.2.2.2.2.1 f2.2.2.2.2.2.2.2.2.1
  · exact key _ f1.1 f1.2.2.2.2.2.1 f1.2.2.2.2.2.2.2.2.1

theorem acts_of_head {s : St} {f : Frame} (hh : s.stack.head? = some f) :
    s.acts = f.act :: St.acts { s with stack := s.stack.tail } := by
  cases hs : s.stack with
  | nil => simp [hs] at hh
  | cons x r => simp only [hs, List.head?_cons, Option.some.injEq] at hh; subst hh; simp [St.acts, hs]

theorem Rch.step {c : Cfg} (hc : c.Ok) (hk : c.kind = .race) {es : List Ev} {s : St} (hi : Inv c s s.tags)
    (hb : Bot s.tags) (hwk : ∀ j, s.child j = .asking → s.working j = true) (hidx : s.index = winner es)
    (ha : Asked es s) (h : Rch c (Reached es) s s.acts) {e : Ev} (hu : s.ub = false)
    (hcan : s.can c e = true) : Rch c (Reached (es ++ [e])) (s.step c e) (s.step c e).acts := by
  have hcall : calls es e = true → ∀ j, s.child j = .waiting → Reached (es ++ [e]) j :=
    fun h1 j hj => reached_snoc.2 (Or.inr ⟨ha.waiting j hj, h1⟩)
  have hsame : calls es e = false → Reached (es ++ [e]) = Reached es := by
    intro h1; funext j; rw [eq_iff_iff, reached_snoc, h1]; simp
  unfold St.step
  rw [if_neg (by simp [hu, hcan])]
  cases e with
  | begin =>
    rw [hsame rfl]
    dsimp only
    split
    · exact h.calm (fun _ hj => ⟨hj, rfl, rfl⟩) rfl
    · exact Rch.startNext hk (Rch.calm (t := { s with phase := .starting, todo := c.order }) h
        (fun _ hj => ⟨hj, rfl, rfl⟩) rfl)
  | ready i o d =>
    have hh : s.stack.head? = some (.asking i) := by simpa [St.can] using hcan
    rw [acts_of_head hh] at h
    exact Rch.complete hk (s := { s with stack := s.stack.tail })
      ((h.drop (by simp [Act.own, Frame.act])).calm (fun _ hj => ⟨hj, rfl, rfl⟩) rfl) (hcall rfl) i o true d
  | notReady i =>
    rw [hsame rfl]
    have hh : s.stack.head? = some (.asking i) := by simpa [St.can] using hcan
    have ht := tags_of_head hh
    have hA := (hi.asking i).2 (by rw [ht]; simp [Frame.tag])
    have hin : i < c.n := (hc.mem i).1 (hi.known i (by rw [hA]; simp))
    rw [ht] at hb
    have hnil : s.stack.tail = [] := List.map_eq_nil_iff.1 (hb.1 rfl)
    have hni : ¬ Reached es i := by
      intro h1
      rcases ha.started i h1.asked with h2 | h2 <;> rw [hA] at h2 <;> simp [CS.ended] at h2
    have hacts : s.acts = [.other] := by rw [acts_of_head hh]; simp [St.acts, hnil, Frame.act]
    rw [hacts] at h
    have hacts' : St.acts { s with
        child := upd s.child i .waiting, sig := upd s.sig i true, stack := .starting i :: s.stack.tail } = [.other] := by
      simp [St.acts, hnil, Frame.act]
    dsimp only
    rw [hacts']
    constructor
    · intro j hT hj hs
      by_cases hji : j = i
      · rw [hji] at hT; exact absurd hT hni
      · exact h.sig j hT (by simpa [hji] using hj) (by simpa [hji] using hs)
    · intro j hT hj hin
      by_cases hji : j = i
      · rw [hji] at hT; exact absurd hT hni
      · exact h.intd j hT (by simpa [hji] using hj) hin
    · intro j hT hj
      by_cases hji : j = i
      · simp [hji]
      · have := h.new j hT (by simpa [hji] using hj)
        simpa [hji] using this
    · rintro ⟨a, ha, hb⟩
      simp only [List.mem_singleton] at ha
      subst ha
      simp [Act.own] at hb
    · intro j hj
      by_cases hji : j = i
      · rw [hji]; exact ⟨hwk i hA, hin⟩
      · exact h.working j (by simpa [hji] using hj)
  | thrown i x d =>
    rw [hsame rfl]
    have h1 : Rch c (Reached es) { s with stack := s.stack.tail } (St.acts { s with stack := s.stack.tail }) := by
      have : ∃ f, s.stack.head? = some f ∧ f.act = .other := by
        simp only [St.can, Bool.or_eq_true, Bool.and_eq_true, beq_iff_eq] at hcan
        rcases hcan with hcan | hcan
        · exact ⟨_, hcan, rfl⟩
        · exact ⟨_, hcan.1, rfl⟩
      obtain ⟨f, hf, hfa⟩ := this
      rw [acts_of_head hf, hfa] at h
      exact (h.drop (by simp [Act.own])).calm (fun _ hj => ⟨hj, rfl, rfl⟩) rfl
    unfold St.thrown
    rw [hk]
    dsimp only
    refine Rch.done hk ?_ _ d
    have key : ∀ t : St, t.child = upd s.child i .running → t.stack = s.stack.tail → t.working = s.working →
        t.sig = s.sig → t.intd = s.intd → Rch c (Reached es) t t.acts := by
      intro t k1 k2 k3 k4 k5
      rw [show t.acts = St.acts { s with stack := s.stack.tail } by simp [St.acts, k2]]
      refine h1.calm (fun j hj => ?_) k5
      rw [k1] at hj
      rw [k3, k4]
      by_cases hji : j = i
      · simp [hji] at hj
      · exact ⟨by simpa [hji] using hj, rfl, rfl⟩
    split <;> split <;> exact key _ rfl rfl rfl rfl rfl
  | fin i o =>
    exact Rch.complete hk h (hcall rfl) i o false false
  | txn i =>
    dsimp only
    split
    · rename_i hn
      have hc' : calls es (.txn i) = true := by simp [calls, ← hidx, hn]
      refine Rch.contIntr hk ?_ false
      exact h.call (by simp) (hcall hc') (fun j hj => ⟨hj, rfl⟩)
    · rename_i hn
      have hc' : calls es (.txn i) = false := by
        rw [hidx] at hn
        simp only [calls]
        cases hw : winner es
        · exact absurd hw hn
        · rfl
      rw [hsame hc']
      exact h
  | ret d =>
    rw [hsame rfl]
    dsimp only
    split
    · exact h
    · exact h
    · rename_i k rest hs
      have hh : s.stack.head? = some (.starting k) := by rw [hs]; rfl
      rw [acts_of_head hh] at h
      refine Rch.afterStart hk (s := { s with stack := rest }) ?_ k d
      rw [show ({ s with stack := rest } : St) = { s with stack := s.stack.tail } by rw [hs]; rfl]
      exact (h.drop (by simp [Act.own, Frame.act])).calm (fun _ hj => ⟨hj, rfl, rfl⟩) rfl
    · rename_i k co since rest hs
      split
      · exact h.calm (fun _ hj => ⟨hj, rfl, rfl⟩) rfl
      · have hh : s.stack.head? = some (.intr k co since) := by rw [hs]; rfl
        rw [acts_of_head hh] at h
        refine Rch.contIntr hk (s := { s with stack := rest }) ?_ d
        rw [show ({ s with stack := rest } : St) = { s with stack := s.stack.tail } by rw [hs]; rfl]
        exact h.calm (fun _ hj => ⟨hj, rfl, rfl⟩) rfl
    · rename_i k co ct since rest hs
      split
      · exact h.calm (fun _ hj => ⟨hj, rfl, rfl⟩) rfl
      · have hh : s.stack.head? = some (.emit k co ct since) := by rw [hs]; rfl
        rw [acts_of_head hh] at h
        refine Rch.contEmit hk (s := { s with stack := rest }) ?_ d
        rw [show ({ s with stack := rest } : St) = { s with stack := s.stack.tail } by rw [hs]; rfl]
        exact h.calm (fun _ hj => ⟨hj, rfl, rfl⟩) rfl
  | cancel ct =>
    rw [hsame rfl]
    exact Rch.contEmit hk (h.push (by simp [Act.own])) false
  | interrupt =>
    rw [hsame rfl]
    exact Rch.contIntr hk (h.push (by simp [Act.own])) false

theorem Rch.steps {c : Cfg} (hc : c.Ok) (hk : c.kind = .race) : ∀ (es pre : List Ev) {g nc : Bool} {s : St},
    All c g nc s pre → Asked pre s → Rch c (Reached pre) s s.acts → Legal c s es → (s.steps c es).ub = false →
    Asked (pre ++ es) (s.steps c es) ∧ Rch c (Reached (pre ++ es)) (s.steps c es) (s.steps c es).acts
  | [], pre, _, _, _, _, ha, hr, _, _ => by rw [List.append_nil]; exact ⟨ha, hr⟩
  | e :: es, pre, g, nc, s, h, ha, hr, hl, hu => by
    rcases h.step hc hl.1 with h1 | h1
    · have := steps_ub (c := c) es h1
      rw [show St.steps c (s.step c e) es = St.steps c s (e :: es) from rfl, hu] at this
      simp at this
    · have := Rch.steps hc hk es (pre ++ [e]) h1 (ha.step h.inv h.ub hl.1)
        (hr.step hc hk h.inv h.bot h.loops.asking (h.hist.race hk) ha h.ub hl.1) hl.2 hu
      rw [List.append_assoc] at this
      exact this

theorem Rch.run {c : Cfg} (hc : c.Ok) (hk : c.kind = .race) {es : List Ev} (hl : Legal c {} es)
    (hu : (St.run c es).ub = false) : Rch c (Reached es) (St.run c es) (St.run c es).acts := by
  refine (Rch.steps hc hk es [] (All.init c) ⟨by simp, by simp⟩ ?_ hl hu).2
  constructor <;> simp

end Cobalt.Comb
