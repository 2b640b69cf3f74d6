import Verif.Thr.Spec
/-! # Lemmas about awaiting a thread -/
namespace Cobalt.Thr

/-- What holds after every schedule. -/
structure Inv (c : Cfg) (s : St) : Prop where
  ownA : s.owner = some .A ↔ s.apc = .readyRead ∨ s.apc = .readyUnlock true ∨ s.apc = .readyUnlock false
    ∨ s.apc = .suspRead ∨ s.apc = .suspEmplace ∨ s.apc = .suspUnlock ∨ s.apc = .suspBack
  ownF : s.owner = some .F ↔ s.fpc = .check ∨ s.fpc = .unlock
  dn : s.done = true ↔ s.fpc ≠ .body
  rdy : s.apc = .readyUnlock true → s.done = true
  back : s.apc = .suspBack → s.done = true
  empl : s.apc = .suspEmplace ∨ s.apc = .suspUnlock → s.fpc = .body ∨ s.fpc = .clear ∨ s.fpc = .lock
  wtr : s.waitor = true ↔ (s.apc = .suspUnlock ∨ s.apc = .waiting) ∧ s.fpc ≠ .unlock ∧ s.fpc ≠ .fin
  pst : s.posted ≠ none ↔ s.apc = .waiting ∧ (s.fpc = .unlock ∨ s.fpc = .fin)
  pval : ∀ e, s.posted = some e → e = c.out
  rval : ∀ e, s.res = some e → e = c.out ∧ (s.apc = .resume ∨ s.apc = .fin)
  rdone : s.apc = .resume → s.done = true
  rfin : s.res ≠ none → s.fpc = .unlock ∨ s.fpc = .fin
  fin : s.apc = .fin → s.ub = true ∧ s.got = [] ∨ s.ub = false ∧ s.got.length = 1
  nofin : s.apc ≠ .fin → s.ub = false ∧ s.got = []
  trm : s.term = true → c.out ≠ none ∧ s.fpc = .check ∧ s.waitor = false
  past : (s.fpc = .unlock ∨ s.fpc = .fin) → c.out ≠ none → s.res ≠ none ∨ s.posted ≠ none
  ubt : s.ub = true → c.tag = .tuple ∧ s.res = none ∧ c.join ≠ .joined
  val : ∀ g, s.got = [g] → (c.join = .joined ∧ g = .notJoinable) ∨
    (c.join ≠ .joined ∧ ((s.res ≠ none ∧ g = expect c.out) ∨ (s.res = none ∧ c.tag ≠ .tuple ∧ g = .ok)))

theorem Inv.init (c : Cfg) : Inv c {} := by
  constructor <;> simp

theorem Inv.stepF {c : Cfg} {s : St} (i : Inv c s) (ht : s.term = false) (hu : s.ub = false) :
    Inv c (stepF c s) := by
  obtain ⟨done, owner, waitor, posted, res, apc, fpc, term, ub, got⟩ := s
  obtain ⟨h1, h2, h3, h4, h5, h6, h7, h8, h9, h10, h11, h12, h13, h14, h15, h16, h17, h18⟩ := i
  simp only at *
  subst ht hu
  cases fpc <;> simp only [Thr.stepF]
  all_goals (first | (constructor <;> simp only <;> grind) | skip)
  all_goals (split)
  all_goals (first | (constructor <;> simp only <;> grind) | skip)
  all_goals (split)
  all_goals (first | (constructor <;> simp only <;> grind) | skip)

theorem Inv.stepA {c : Cfg} {s : St} (i : Inv c s) (ht : s.term = false) (hu : s.ub = false) :
    Inv c (stepA c s) := by
  obtain ⟨done, owner, waitor, posted, res, apc, fpc, term, ub, got⟩ := s
  obtain ⟨h1, h2, h3, h4, h5, h6, h7, h8, h9, h10, h11, h12, h13, h14, h15, h16, h17, h18⟩ := i
  simp only at *
  subst ht hu
  cases apc <;> simp only [Thr.stepA, result]
  all_goals (repeat' split)
  all_goals (constructor <;> simp only <;> grind [expect])

theorem Inv.step {c : Cfg} {s : St} (i : Inv c s) (w : Who) : Inv c (s.step c w) := by
  unfold St.step
  split
  · exact i
  · rename_i h
    have h1 : s.term = false := by cases h : s.term <;> simp_all
    have h2 : s.ub = false := by cases h : s.ub <;> simp_all
    cases w
    · exact i.stepA h1 h2
    · exact i.stepF h1 h2

theorem Inv.foldl {c : Cfg} (sched : List Who) : ∀ {s : St}, Inv c s → Inv c (sched.foldl (St.step c) s) := by
  induction sched with
  | nil => exact fun i => i
  | cons w l ih => exact fun i => ih (i.step w)

theorem Inv.run (c : Cfg) (sched : List Who) : Inv c (St.run c sched) := Inv.foldl sched (Inv.init c)

/-! ### Progress -/

def APc.rank : APc → Nat
  | .readyLock => 9 | .readyRead => 8 | .readyUnlock _ => 7 | .suspLock => 6 | .suspRead => 5
  | .suspEmplace => 4 | .suspUnlock => 3 | .suspBack => 3 | .waiting => 2 | .resume => 1 | .fin => 0

def FPc.rank : FPc → Nat
  | .body => 5 | .clear => 4 | .lock => 3 | .check => 2 | .unlock => 1 | .fin => 0

def St.rank (s : St) : Nat := s.apc.rank + s.fpc.rank

/-- The process has ended or the awaiter has its result and the thread has ended. -/
def St.Over (s : St) : Prop := s.term = true ∨ s.ub = true ∨ s.apc = .fin ∧ s.fpc = .fin

theorem stepA_rank (c : Cfg) (s : St) : (stepA c s).rank ≤ s.rank := by
  obtain ⟨done, owner, waitor, posted, res, apc, fpc, term, ub, got⟩ := s
  cases apc <;> simp only [stepA, result]
  all_goals (repeat' split)
  all_goals (simp [St.rank, APc.rank])

theorem stepF_rank (c : Cfg) (s : St) : (stepF c s).rank ≤ s.rank := by
  obtain ⟨done, owner, waitor, posted, res, apc, fpc, term, ub, got⟩ := s
  cases fpc <;> simp only [stepF]
  all_goals (repeat' split)
  all_goals (simp [St.rank, FPc.rank])

theorem step_rank (c : Cfg) (s : St) (w : Who) : (s.step c w).rank ≤ s.rank := by
  unfold St.step
  split
  · exact Nat.le_refl _
  · cases w
    · exact stepA_rank c s
    · exact stepF_rank c s

theorem moveA (c : Cfg) (s : St) : (stepA c s).rank < s.rank ∨ stepA c s = s ∧
    (s.apc = .readyLock ∧ s.fpc ≠ .fin ∨ s.apc = .readyLock ∧ s.owner ≠ none ∨
     s.apc = .suspLock ∧ s.owner ≠ none ∨ s.apc = .waiting ∧ s.posted = none ∨
     s.apc = .resume ∧ s.fpc ≠ .fin ∨ s.apc = .fin) := by
  obtain ⟨done, owner, waitor, posted, res, apc, fpc, term, ub, got⟩ := s
  cases apc <;> simp only [stepA, result]
  all_goals (repeat' split)
  all_goals (simp only [St.rank, APc.rank])
  all_goals (simp_all)

theorem moveF (c : Cfg) (s : St) : (stepF c s).rank < s.rank ∨ (stepF c s).term = true ∨
    s.fpc = .lock ∧ s.owner ≠ none ∨ s.fpc = .fin := by
  obtain ⟨done, owner, waitor, posted, res, apc, fpc, term, ub, got⟩ := s
  cases fpc <;> simp only [stepF]
  all_goals (repeat' split)
  all_goals (simp only [St.rank, FPc.rank])
  all_goals (simp_all)

theorem who_cases (o : Option Who) : o = none ∨ o = some .A ∨ o = some .F := by
  cases o with
  | none => exact .inl rfl
  | some w => cases w <;> simp

/-- If neither thread has ended, one of them can go on. -/
theorem progress {c : Cfg} {s : St} (i : Inv c s) (h : ¬ s.Over) :
    ((s.step c .A).step c .F).rank < s.rank ∨ ((s.step c .A).step c .F).term = true := by
  simp only [St.Over, not_or, Bool.not_eq_true] at h
  obtain ⟨ht, hu, h⟩ := h
  have e1 : s.step c .A = stepA c s := by simp [St.step, ht, hu]
  have e2 : s.step c .F = stepF c s := by simp [St.step, ht, hu]
  rcases moveA c s with hA | ⟨hA, hb⟩
  · left
    have := step_rank c (s.step c .A) .F
    rw [e1] at this ⊢
    omega
  · rw [e1, hA, e2]
    rcases moveF c s with hF | hF | hF
    · exact .inl hF
    · exact .inr hF
    · exfalso
      obtain ⟨h1, h2, h3, h4, h5, h6, h7, h8, h9, h10, h11, h12, h13, h14, h15, h16, h17, h18⟩ := i
      have := who_cases s.owner
      grind

theorem Over.step {c : Cfg} {s : St} (h : s.Over) (w : Who) : s.step c w = s := by
  unfold St.step
  split
  · rfl
  · rename_i hn
    rcases h with h | h | ⟨h1, h2⟩
    · exact absurd (Or.inl h) hn
    · exact absurd (Or.inr h) hn
    · cases w
      · simp [stepA, h1]
      · simp [stepF, h2]

theorem Over.foldl {c : Cfg} (l : List Who) : ∀ {s : St}, s.Over → l.foldl (St.step c) s = s := by
  induction l with
  | nil => exact fun _ => rfl
  | cons w l ih => intro s h; rw [List.foldl_cons, Over.step h w]; exact ih h

theorem rounds_over {c : Cfg} : ∀ (n : Nat) {s : St}, Inv c s → s.rank < n →
    ((rounds n).foldl (St.step c) s).Over := by
  intro n
  induction n with
  | zero => intro s _ h; exact absurd h (by omega)
  | succ n ih =>
    intro s i h
    by_cases ho : s.Over
    · rw [Over.foldl _ ho]; exact ho
    · simp only [rounds, List.foldl_cons]
      rcases progress i ho with hp | hp
      · exact ih ((i.step .A).step .F) (by omega)
      · rw [Over.foldl (rounds n) (s := (s.step c .A).step c .F) (Or.inl hp)]; exact Or.inl hp

theorem run_rank (c : Cfg) (sched : List Who) : (St.run c sched).rank ≤ 14 := by
  have : ∀ (l : List Who) (s : St), (l.foldl (St.step c) s).rank ≤ s.rank := by
    intro l
    induction l with
    | nil => exact fun _ => Nat.le_refl _
    | cons w l ih => exact fun s => Nat.le_trans (ih _) (step_rank c s w)
  exact this sched {}

/-- After fifteen turns each the threads are through. -/
theorem run_over (c : Cfg) (sched : List Who) (n : Nat) (h : 15 ≤ n) :
    (St.run c (sched ++ rounds n)).Over := by
  unfold St.run
  rw [List.foldl_append]
  have := run_rank c sched
  exact rounds_over n (Inv.run c sched) (by unfold St.run at this; omega)

/-! ### Awaiters that wait -/

/-- The awaiter is waiting for the handler, or was woken by it. -/
def St.Caught (s : St) : Prop := (s.apc = .waiting ∨ s.res ≠ none) ∧ s.term = false ∧ s.ub = false

theorem Caught.step {c : Cfg} {s : St} (i : Inv c s) (h : s.Caught) (w : Who) : (s.step c w).Caught := by
  obtain ⟨h, ht, hu⟩ := h
  obtain ⟨done, owner, waitor, posted, res, apc, fpc, term, ub, got⟩ := s
  obtain ⟨h1, h2, h3, h4, h5, h6, h7, h8, h9, h10, h11, h12, h13, h14, h15, h16, h17, h18⟩ := i
  simp only [St.Caught] at *
  subst ht hu
  simp only [St.step, Bool.false_eq_true, or_self, if_false]
  cases w
  · cases apc <;> simp only [stepA, result]
    all_goals (repeat' split)
    all_goals (try simp only)
    all_goals (grind)
  · cases fpc <;> simp only [stepF]
    all_goals (repeat' split)
    all_goals (try simp only)
    all_goals (grind)

theorem Caught.foldl {c : Cfg} (l : List Who) : ∀ {s : St}, Inv c s → s.Caught →
    (l.foldl (St.step c) s).Caught := by
  induction l with
  | nil => exact fun _ h => h
  | cons w l ih => exact fun i h => ih (i.step w) (Caught.step i h w)

/-- The result is set only for an awaiter that waits. -/
theorem step_res {c : Cfg} {s : St} (w : Who) (h : (s.step c w).res ≠ none) : s.res ≠ none ∨ s.apc = .waiting := by
  unfold St.step at h
  split at h
  · exact .inl h
  · cases w
    · simp only [stepA, result] at h
      split at h <;> (repeat' split at h) <;> simp_all
    · simp only [stepF] at h
      split at h <;> (repeat' split at h) <;> simp_all

theorem was_waiting {c : Cfg} : ∀ (l : List Who) {s : St}, (l.foldl (St.step c) s).res ≠ none →
    s.res ≠ none ∨ ∃ k, ((l.take k).foldl (St.step c) s).apc = .waiting := by
  intro l
  induction l with
  | nil => intro s h; exact .inl h
  | cons w l ih =>
    intro s h
    rcases ih h with h1 | ⟨k, hk⟩
    · rcases step_res w h1 with h2 | h2
      · exact .inl h2
      · exact .inr ⟨0, h2⟩
    · exact .inr ⟨k + 1, hk⟩

/-- Nothing is posted to or set for an awaiter that has not waited. -/
theorem run_waiting (c : Cfg) (l : List Who) (h : (St.run c l).res ≠ none ∨ (St.run c l).apc = .waiting) :
    ∃ k, (St.run c (l.take k)).apc = .waiting := by
  rcases h with h | h
  · rcases was_waiting l h with h1 | h1
    · exact absurd rfl h1
    · exact h1
  · exact ⟨l.length, by rw [List.take_length]; exact h⟩

theorem waiting_caught {c : Cfg} {s : St} (i : Inv c s) (h : s.apc = .waiting) : s.Caught := by
  refine ⟨.inl h, ?_, (i.nofin (by rw [h]; decide)).1⟩
  cases ht : s.term with
  | false => rfl
  | true =>
    obtain ⟨-, h1, h2⟩ := i.trm ht
    have := i.wtr.2 ⟨.inr h, by rw [h1]; decide, by rw [h1]; decide⟩
    rw [h2] at this; cases this

theorem run_caught {c : Cfg} {l : List Who} {k : Nat} (h : (St.run c (l.take k)).apc = .waiting) :
    (St.run c l).Caught := by
  have := Caught.foldl (l.drop k) (Inv.run c (l.take k)) (waiting_caught (Inv.run c _) h)
  unfold St.run at this ⊢
  rwa [← List.foldl_append, List.take_append_drop] at this

end Cobalt.Thr
