import Verif.Thr.FrameModel
/-! # Lemmas about the coroutine of a thread -/
namespace Cobalt.Thr.Frame

/-- Both threads get `n` turns each. -/
def rounds : Nat → List Who
  | 0 => []
  | n + 1 => .C :: .T :: rounds n

/-- What holds after every schedule, for all bodies. -/
structure Inv (s : St) : Prop where
  mtxC : s.mtx = some .C ↔ s.cpc = .getObject ∨ s.cpc = .initialSuspend
  mtxT : s.mtx = some .T ↔ s.tpc = .resuming ∨ s.tpc = .unlocking
  susp : s.suspended = true ↔ s.cpc ≠ .getObject ∧ s.cpc ≠ .initialSuspend
  abs : s.tpc = .absent ↔ s.cpc = .getObject
  early : s.tpc = .absent ∨ s.tpc = .prepare ∨ s.tpc = .runs ∨ s.tpc = .locking ∨ s.tpc = .resuming →
    s.resumed = 0
  once : s.resumed ≤ 1
  after : s.resumed = 1 → s.suspended = true
  que : s.queued = true → s.resumed = 0 ∧ s.frame = true ∧ (s.tpc = .runs ∨ s.tpc = .over ∨ s.tpc = .fin)
  late : s.tpc = .unlocking ∨ s.tpc = .looping → s.resumed = 1
  noque : s.queued = false → s.tpc = .over ∨ s.tpc = .fin → s.resumed = 1
  loopp : s.tpc = .looping → s.pending = true
  runq : s.tpc = .runs → s.queued = true
  stp : s.stop = true ↔ s.cpc = .stopped ∨ s.cpc = .gone
  gn : s.cpc = .gone → s.tpc = .fin
  dst : s.destroyed = if s.frame then 0 else 1
  fr0 : s.resumed = 0 → s.frame = true
  pend : s.pending = true → s.frame = true ∧ s.resumed = 1
  pool : s.pool = false ↔ s.tpc = .fin

theorem Inv.init : Inv {} := by
  constructor <;> simp

theorem Inv.stepC {c : Cfg} {s : St} (i : Inv s) : Inv (stepC c s) := by
  obtain ⟨mtx, frame, suspended, resumed, pending, queued, stop, child, pool, destroyed, cpc, tpc, ub⟩ := s
  obtain ⟨h1, h2, h3, h4, h5, h6, h7, h8, h9, h10, h11, h12, h13, h14, h15, h16, h17, h18⟩ := i
  cases cpc <;> simp only [Frame.stepC, St.use, St.kill, St.ctxGone]
  all_goals (repeat' split)
  all_goals (constructor <;> simp only at * <;> grind)

theorem Inv.stepT {c : Cfg} {s : St} (i : Inv s) : Inv (stepT c s) := by
  obtain ⟨mtx, frame, suspended, resumed, pending, queued, stop, child, pool, destroyed, cpc, tpc, ub⟩ := s
  obtain ⟨h1, h2, h3, h4, h5, h6, h7, h8, h9, h10, h11, h12, h13, h14, h15, h16, h17, h18⟩ := i
  cases tpc <;> simp only [Frame.stepT, St.use, St.kill, St.ctxGone]
  all_goals (repeat' split)
  all_goals (constructor <;> simp only at * <;> grind)

theorem Inv.step {c : Cfg} {s : St} (i : Inv s) (w : Who) : Inv (s.step c w) := by
  cases w
  · exact i.stepC
  · exact i.stepT

theorem Inv.foldl {c : Cfg} (l : List Who) : ∀ {s : St}, Inv s → Inv (l.foldl (St.step c) s) := by
  induction l with
  | nil => exact fun i => i
  | cons w l ih => exact fun i => ih (i.step w)

theorem Inv.run (c : Cfg) (l : List Who) : Inv (St.run c l) := Inv.foldl l Inv.init

/-! ### Progress -/

def CPc.rank : CPc → Nat
  | .getObject => 4 | .initialSuspend => 3 | .hasObject => 2 | .stopped => 1 | .gone => 0

def TPc.rank : TPc → Nat
  | .absent => 8 | .prepare => 7 | .runs => 6 | .locking => 5 | .resuming => 4 | .unlocking => 3
  | .looping => 2 | .over => 1 | .fin => 0

def St.rank (s : St) : Nat := s.cpc.rank + s.tpc.rank

theorem moveC (c : Cfg) (s : St) (i : Inv s) : (stepC c s).rank < s.rank ∨ stepC c s = s ∧
    (s.cpc = .hasObject ∧ s.tpc ≠ .fin ∨ s.cpc = .stopped ∧ s.tpc ≠ .fin ∨ s.cpc = .gone) := by
  have hg := i.abs
  clear i
  obtain ⟨mtx, frame, suspended, resumed, pending, queued, stop, child, pool, destroyed, cpc, tpc, ub⟩ := s
  cases cpc <;> simp only [stepC, St.use, St.kill, St.ctxGone]
  all_goals (repeat' split)
  all_goals (cases tpc <;> simp_all [St.rank, CPc.rank, TPc.rank])

theorem moveT (c : Cfg) (s : St) : (stepT c s).rank < s.rank ∨ stepT c s = s ∧
    (s.tpc = .absent ∨ s.tpc = .locking ∧ s.mtx ≠ none ∨ s.tpc = .fin) := by
  obtain ⟨mtx, frame, suspended, resumed, pending, queued, stop, child, pool, destroyed, cpc, tpc, ub⟩ := s
  cases tpc <;> simp only [stepT, St.use, St.kill, St.ctxGone]
  all_goals (repeat' split)
  all_goals (simp_all [St.rank, TPc.rank])

/-- The thread and the object are gone. -/
def St.Over (s : St) : Prop := s.cpc = .gone ∧ s.tpc = .fin

theorem progress {c : Cfg} {s : St} (i : Inv s) (h : ¬ s.Over) :
    ((s.step c .C).step c .T).rank < s.rank := by
  simp only [St.step]
  rcases moveC c s i with hC | ⟨hC, hb⟩
  · rcases moveT c (stepC c s) with hT | ⟨hT, _⟩
    · omega
    · rw [hT]; exact hC
  · rw [hC]
    rcases moveT c s with hT | ⟨_, hb'⟩
    · exact hT
    · exfalso
      obtain ⟨h1, h2, h3, h4, h5, h6, h7, h8, h9, h10, h11, h12, h13, h14, h15, h16, h17, h18⟩ := i
      unfold St.Over at h
      have : s.mtx = none ∨ s.mtx = some .C ∨ s.mtx = some .T := by
        cases hm : s.mtx with
        | none => exact .inl rfl
        | some w => cases w <;> simp
      grind

theorem Over.step {c : Cfg} {s : St} (h : s.Over) (w : Who) : s.step c w = s := by
  cases w <;> simp [St.step, stepC, stepT, h.1, h.2]

theorem Over.foldl {c : Cfg} (l : List Who) : ∀ {s : St}, s.Over → l.foldl (St.step c) s = s := by
  induction l with
  | nil => exact fun _ => rfl
  | cons w l ih => intro s h; rw [List.foldl_cons, Over.step h w]; exact ih h

theorem rounds_over {c : Cfg} : ∀ (n : Nat) {s : St}, Inv s → s.rank < n →
    ((rounds n).foldl (St.step c) s).Over := by
  intro n
  induction n with
  | zero => intro s _ h; exact absurd h (by omega)
  | succ n ih =>
    intro s i h
    by_cases ho : s.Over
    · rw [Over.foldl _ ho]; exact ho
    · simp only [rounds, List.foldl_cons]
      have hp := progress (c := c) i ho
      exact ih ((i.step .C).step .T) (by omega)

theorem step_rank (c : Cfg) (s : St) (i : Inv s) (w : Who) : (s.step c w).rank ≤ s.rank := by
  cases w
  · rcases moveC c s i with h | ⟨h, _⟩
    · exact Nat.le_of_lt h
    · simp only [St.step, h]; exact Nat.le_refl _
  · rcases moveT c s with h | ⟨h, _⟩
    · exact Nat.le_of_lt h
    · simp only [St.step, h]; exact Nat.le_refl _

theorem run_rank (c : Cfg) (sched : List Who) : (St.run c sched).rank ≤ 12 := by
  have : ∀ (l : List Who) (s : St), Inv s → (l.foldl (St.step c) s).rank ≤ s.rank := by
    intro l
    induction l with
    | nil => exact fun _ _ => Nat.le_refl _
    | cons w l ih => exact fun s i => Nat.le_trans (ih _ (i.step w)) (step_rank c s i w)
  exact this sched {} Inv.init

theorem run_over (c : Cfg) (sched : List Who) (n : Nat) (h : 13 ≤ n) :
    (St.run c (sched ++ rounds n)).Over := by
  unfold St.run
  rw [List.foldl_append]
  have := run_rank c sched
  exact rounds_over n (Inv.run c sched) (by unfold St.run at this; omega)

/-! ### Bodies that suspend and return -/

structure Good (s : St) : Prop where
  ub : s.ub = false
  fr : s.frame = false → s.tpc = .over ∨ s.tpc = .fin
  mid : s.tpc = .unlocking ∨ s.tpc = .looping → s.pending = true
  ch : s.child = true → s.pending = true
  own : s.resumed = 1 → s.frame = true → s.pending = true
  st : s.tpc = .over → s.pending = true → s.stop = true
  fin : s.tpc = .fin → s.pending = false

theorem Good.init : Good {} := by
  constructor <;> simp

theorem Good.step {c : Cfg} {s : St} (hs : c.suspends = true) (ht : c.throws = false)
    (i : Inv s) (g : Good s) (w : Who) : Good (s.step c w) := by
  obtain ⟨mtx, frame, suspended, resumed, pending, queued, stop, child, pool, destroyed, cpc, tpc, ub⟩ := s
  obtain ⟨h1, h2, h3, h4, h5, h6, h7, h8, h9, h10, h11, h12, h13, h14, h15, h16, h17, h18⟩ := i
  obtain ⟨g1, g2, g3, g4, g5, g6, g7⟩ := g
  cases w
  · cases cpc <;> simp only [St.step, stepC, St.use, St.kill, St.ctxGone, hs, ht]
    all_goals (repeat' split)
    all_goals (constructor <;> simp only at * <;> grind)
  · cases tpc <;> simp only [St.step, stepT, St.use, St.kill, St.ctxGone, hs, ht]
    all_goals (repeat' split)
    all_goals (constructor <;> simp only at * <;> grind)

theorem Good.run {c : Cfg} (hs : c.suspends = true) (ht : c.throws = false) (l : List Who) :
    Good (St.run c l) := by
  have : ∀ (l : List Who) (s : St), Inv s → Good s → Good (l.foldl (St.step c) s) := by
    intro l
    induction l with
    | nil => exact fun _ _ g => g
    | cons w l ih => exact fun s i g => ih _ (i.step w) (Good.step hs ht i g w)
  exact this l {} Inv.init Good.init

/-- An object that is kept does not stop the context early. -/
structure Kept (s : St) : Prop where
  st : s.stop = true → s.tpc = .fin
  que : s.queued = true → s.tpc = .runs

theorem Kept.run {c : Cfg} (hd : c.drops = false) (l : List Who) : Kept (St.run c l) := by
  have step : ∀ (s : St) (w : Who), Inv s → Kept s → Kept (s.step c w) := by
    intro s w i k
    obtain ⟨h1, h2, h3, h4, h5, h6, h7, h8, h9, h10, h11, h12, h13, h14, h15, h16, h17, h18⟩ := i
    obtain ⟨mtx, frame, suspended, resumed, pending, queued, stop, child, pool, destroyed, cpc, tpc, ub⟩ := s
    obtain ⟨k1, k2⟩ := k
    cases w
    · cases cpc <;> simp only [St.step, stepC, St.use, St.kill, St.ctxGone, hd]
      all_goals (repeat' split)
      all_goals (constructor <;> simp only at * <;> grind)
    · cases tpc <;> simp only [St.step, stepT, St.use, St.kill, St.ctxGone]
      all_goals (repeat' split)
      all_goals (constructor <;> simp only at * <;> grind)
  have : ∀ (l : List Who) (s : St), Inv s → Kept s → Kept (l.foldl (St.step c) s) := by
    intro l
    induction l with
    | nil => exact fun _ _ k => k
    | cons w l ih => exact fun s i k => ih _ (i.step w) (step s w i k)
  exact this l {} Inv.init ⟨by simp, by simp⟩

end Cobalt.Thr.Frame

namespace Cobalt.Thr.Frame

/-- The body has suspended and has not gone on. -/
structure Held (s : St) : Prop where
  ub : s.ub = false
  pend : s.resumed = 1 → s.frame = true → s.pending = true ∧ (s.tpc = .unlocking ∨ s.tpc = .looping ∨
    (s.tpc = .over ∧ s.cpc = .stopped))
  dead : s.frame = false → s.tpc = .fin ∧ s.pending = false
  child : s.child = true → s.frame = true ∧ s.resumed = 1
  live : s.resumed = 0 → s.tpc ≠ .looping ∧ s.tpc ≠ .unlocking

theorem Held.step {c : Cfg} (hs : c.suspends = true) {s : St} (i : Inv s) (h : Held s) (w : Who)
    (hw : ¬ (w = .T ∧ s.tpc = .looping ∧ s.stop = false)) : Held (s.step c w) := by
  obtain ⟨mtx, frame, suspended, resumed, pending, queued, stop, child, pool, destroyed, cpc, tpc, ub⟩ := s
  obtain ⟨h1, h2, h3, h4, h5, h6, h7, h8, h9, h10, h11, h12, h13, h14, h15, h16, h17, h18⟩ := i
  obtain ⟨a1, a2, a3, a4, a5⟩ := h
  cases w
  · cases cpc <;> simp only [St.step, stepC, St.use, St.kill, St.ctxGone, hs]
    all_goals (repeat' split)
    all_goals (constructor <;> simp only at * <;> grind)
  · cases tpc <;> simp only [St.step, stepT, St.use, St.kill, St.ctxGone, hs]
    all_goals (repeat' split)
    all_goals (constructor <;> simp only at * <;> grind)

/-- The body has gone on and thrown. -/
structure Thrown (s : St) : Prop where
  frame : s.frame = true
  pend : s.pending = false
  res : s.resumed = 1
  tpc : s.tpc = .over ∨ s.tpc = .fin
  cpc : s.cpc ≠ .getObject

theorem Thrown.step {c : Cfg} {s : St} (h : Thrown s) (w : Who) : Thrown (s.step c w) := by
  obtain ⟨mtx, frame, suspended, resumed, pending, queued, stop, child, pool, destroyed, cpc, tpc, ub⟩ := s
  obtain ⟨a1, a2, a3, a4, a5⟩ := h
  cases w
  · cases cpc <;> simp only [St.step, stepC, St.use, St.kill, St.ctxGone]
    all_goals (repeat' split)
    all_goals (constructor <;> simp only at * <;> grind)
  · cases tpc <;> simp only [St.step, stepT, St.use, St.kill, St.ctxGone]
    all_goals (repeat' split)
    all_goals (constructor <;> simp only at * <;> grind)

theorem Thrown.foldl {c : Cfg} (l : List Who) : ∀ {s : St}, Thrown s → Thrown (l.foldl (St.step c) s) := by
  induction l with
  | nil => exact fun h => h
  | cons w l ih => exact fun h => ih (h.step w)

theorem Thrown.begin {c : Cfg} (ht : c.throws = true) {s : St} (i : Inv s) (h1 : s.tpc = .looping)
    (h2 : s.stop = false) : Thrown (s.step c .T) := by
  have hp := i.loopp h1
  obtain ⟨hf, hr⟩ := i.pend hp
  simp only [St.step, stepT, h1, h2, Bool.false_eq_true, if_false, ht, if_true, St.use]
  exact ⟨hf, rfl, hr, .inl rfl, fun h => by
    have := i.abs.2 h; rw [h1] at this; cases this⟩

/-- The body went on from its suspension point: the thread took the step out of `looping`
while nobody had asked it to stop. -/
def WentOn (c : Cfg) (l : List Who) : Prop :=
  ∃ a b, l = a ++ .T :: b ∧ (St.run c a).tpc = .looping ∧ (St.run c a).stop = false

theorem Held.run {c : Cfg} (hs : c.suspends = true) (l : List Who) (hw : ¬ WentOn c l) :
    Held (St.run c l) := by
  have key : ∀ (b a : List Who), a ++ b = l → Held (St.run c a) → Held (St.run c (a ++ b)) := by
    intro b
    induction b with
    | nil => intro a _ h; simpa using h
    | cons w b ih =>
      intro a e h
      have : Held (St.run c (a ++ [w])) := by
        have := h.step hs (Inv.run c a) w (fun hh => hw ⟨a, b, by rw [← hh.1]; exact e.symm, hh.2⟩)
        simpa [St.run, List.foldl_append] using this
      have := ih (a ++ [w]) (by simpa using e) this
      simpa using this
  exact key l [] rfl ⟨rfl, by simp [St.run], by simp [St.run], by simp [St.run], by simp [St.run]⟩

theorem Thrown.run {c : Cfg} (ht : c.throws = true) {l : List Who} (hw : WentOn c l) : Thrown (St.run c l) := by
  obtain ⟨a, b, rfl, h1, h2⟩ := hw
  have := (Thrown.begin ht (Inv.run c a) h1 h2).foldl (c := c) b
  simpa [St.run, List.foldl_append] using this

/-- A body that throws without having suspended. -/
structure Flat (s : St) : Prop where
  frame : s.frame = true
  pend : s.pending = false

theorem Flat.run {c : Cfg} (hs : c.suspends = false) (ht : c.throws = true) (l : List Who) :
    Flat (St.run c l) := by
  have key : ∀ (l : List Who) (s : St), Flat s → Flat (l.foldl (St.step c) s) := by
    intro l
    induction l with
    | nil => exact fun _ h => h
    | cons w l ih =>
      intro s h
      refine ih _ ?_
      clear ih
      obtain ⟨mtx, frame, suspended, resumed, pending, queued, stop, child, pool, destroyed, cpc, tpc, ub⟩ := s
      obtain ⟨a1, a2⟩ := h
      cases w
      · cases cpc <;> simp only [St.step, stepC, St.use, St.kill, St.ctxGone]
        all_goals (repeat' split)
        all_goals (constructor <;> simp only at * <;> grind)
      · cases tpc <;> simp only [St.step, stepT, St.use, St.kill, St.ctxGone, hs, ht]
        all_goals (repeat' split)
        all_goals (constructor <;> simp only at * <;> grind)
  exact key l {} ⟨rfl, rfl⟩

/-- A body that returns without having suspended leaves the mutex to be unlocked in a frame
that is gone. -/
theorem immediate_ub {c : Cfg} (hs : c.suspends = false) (ht : c.throws = false) (l : List Who)
    (hr : (St.run c l).resumed = 1) (ho : (St.run c l).tpc = .fin) : (St.run c l).ub = true := by
  have key : ∀ (l : List Who) (s : St), Inv s →
      ((s.tpc = .unlocking → s.frame = false) ∧ (s.resumed = 1 → s.tpc = .unlocking ∨ s.ub = true)) →
      ((l.foldl (St.step c) s).tpc = .unlocking → (l.foldl (St.step c) s).frame = false) ∧
      ((l.foldl (St.step c) s).resumed = 1 → (l.foldl (St.step c) s).tpc = .unlocking ∨
        (l.foldl (St.step c) s).ub = true) := by
    intro l
    induction l with
    | nil => exact fun _ _ h => h
    | cons w l ih =>
      intro s i h
      refine ih _ (i.step w) ?_
      obtain ⟨mtx, frame, suspended, resumed, pending, queued, stop, child, pool, destroyed, cpc, tpc, ub⟩ := s
      obtain ⟨h1, h2, h3, h4, h5, h6, h7, h8, h9, h10, h11, h12, h13, h14, h15, h16, h17, h18⟩ := i
      clear ih
      cases w
      · cases cpc <;> simp only [St.step, stepC, St.use, St.kill, St.ctxGone, hs, ht]
        all_goals (repeat' split)
        all_goals (simp only at *)
        all_goals (grind)
      · cases tpc <;> simp only [St.step, stepT, St.use, St.kill, St.ctxGone, hs, ht]
        all_goals (repeat' split)
        all_goals (simp only at *)
        all_goals (grind)
  rcases (key l {} Inv.init ⟨by simp, by simp⟩).2 hr with h | h
  · unfold St.run at ho
    rw [ho] at h; cases h
  · exact h

end Cobalt.Thr.Frame
