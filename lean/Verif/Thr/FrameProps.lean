import Verif.Thr.FrameLemmas
/-!
# Properties of the coroutine of a thread
-/
namespace Cobalt.Thr.Frame

/-- The property C62 as stated: whatever the body and the schedule, when thread and object are
gone the frame was destroyed once and not used afterwards. -/
def C62 : Prop := ∀ (c : Cfg) (sched : List Who) (n : Nat), 13 ≤ n →
  (St.run c (sched ++ rounds n)).ub = false ∧ (St.run c (sched ++ rounds n)).destroyed = 1

/-- The body is resumed by the new thread at most once at its start, and only after the
creator has left it at its initial suspension point: for all bodies and schedules. -/
theorem C62_start (c : Cfg) (sched : List Who) :
    (St.run c sched).resumed ≤ 1 ∧
    ((St.run c sched).resumed = 1 → (St.run c sched).suspended = true) ∧
    (St.run c sched).destroyed ≤ 1 := by
  have i := Inv.run c sched
  refine ⟨i.once, i.after, ?_⟩
  rw [i.dst]; split <;> omega

/-- The statement for bodies that suspend and return, if the object is kept until the thread
has ended. Missing: bodies that do not suspend, bodies that throw, objects destroyed early;
see the theorems below. -/
theorem C62_partial (c : Cfg) (sched : List Who) (n : Nat) (hs : c.suspends = true)
    (ht : c.throws = false) (hd : c.drops = false) (hn : 13 ≤ n) :
    (St.run c (sched ++ rounds n)).ub = false ∧ (St.run c (sched ++ rounds n)).destroyed = 1 := by
  have i := Inv.run c (sched ++ rounds n)
  have g := Good.run hs ht (sched ++ rounds n)
  have k := Kept.run hd (sched ++ rounds n)
  have ho := run_over c sched n hn
  refine ⟨g.ub, ?_⟩
  have hq : (St.run c (sched ++ rounds n)).queued = false := by
    cases h : (St.run c (sched ++ rounds n)).queued
    · rfl
    · have := k.que h; rw [ho.2] at this; cases this
  have hr := i.noque hq (.inr ho.2)
  have hf : (St.run c (sched ++ rounds n)).frame = false := by
    cases h : (St.run c (sched ++ rounds n)).frame
    · rfl
    · have := g.own hr h; rw [g.fin ho.2] at this; cases this
  rw [i.dst, hf]; rfl

example : (⟨true, false, false, true⟩ : Cfg).suspends = true ∧
    (⟨true, false, false, true⟩ : Cfg).throws = false ∧
    (⟨true, false, false, true⟩ : Cfg).drops = false := by decide

/-- Destroying the object early is safe for such bodies, and the frame is destroyed unless
the body never started. -/
theorem C62_dropped (c : Cfg) (sched : List Who) (n : Nat) (hs : c.suspends = true)
    (ht : c.throws = false) (hn : 13 ≤ n) :
    (St.run c (sched ++ rounds n)).ub = false ∧
    ((St.run c (sched ++ rounds n)).destroyed = 1 ↔ (St.run c (sched ++ rounds n)).resumed = 1) := by
  have i := Inv.run c (sched ++ rounds n)
  have g := Good.run hs ht (sched ++ rounds n)
  have ho := run_over c sched n hn
  refine ⟨g.ub, ?_⟩
  rw [i.dst]
  constructor
  · intro h
    have := i.once
    by_cases hr : (St.run c (sched ++ rounds n)).resumed = 0
    · rw [i.fr0 hr] at h; cases h
    · omega
  · intro hr
    have hf : (St.run c (sched ++ rounds n)).frame = false := by
      cases h : (St.run c (sched ++ rounds n)).frame
      · rfl
      · have := g.own hr h; rw [g.fin ho.2] at this; cases this
    rw [hf]; rfl

example : (⟨true, false, true, true⟩ : Cfg).suspends = true ∧
    (⟨true, false, true, true⟩ : Cfg).throws = false := by decide

/-- A body that returns without having suspended: its frame is destroyed within `resume`,
and then the mutex in it is unlocked. -/
theorem C62_violated : ¬ C62 := by
  intro h
  have := (h ⟨false, false, false, false⟩ [] 13 (by decide)).1
  revert this; decide

/-- The same, for every schedule in which the thread gets to the end of its handler. -/
theorem C62_immediate (c : Cfg) (sched : List Who) (n : Nat) (hs : c.suspends = false)
    (ht : c.throws = false) (hd : c.drops = false) (hn : 13 ≤ n) :
    (St.run c (sched ++ rounds n)).ub = true := by
  have i := Inv.run c (sched ++ rounds n)
  have k := Kept.run hd (sched ++ rounds n)
  have ho := run_over c sched n hn
  have hq : (St.run c (sched ++ rounds n)).queued = false := by
    cases h : (St.run c (sched ++ rounds n)).queued
    · rfl
    · have := k.que h; rw [ho.2] at this; cases this
  have hr := i.noque hq (.inr ho.2)
  exact immediate_ub hs ht _ hr ho.2

example : (⟨false, false, false, true⟩ : Cfg).suspends = false ∧
    (⟨false, false, false, true⟩ : Cfg).throws = false ∧
    (⟨false, false, false, true⟩ : Cfg).drops = false := by decide

/-- Exactly when the property holds: the body has a suspension point, it came to run, and it
did not go on from there to throw. -/
theorem C62_exact (c : Cfg) (sched : List Who) (n : Nat) (hn : 13 ≤ n) :
    ((St.run c (sched ++ rounds n)).ub = false ∧ (St.run c (sched ++ rounds n)).destroyed = 1) ↔
    c.suspends = true ∧ (St.run c (sched ++ rounds n)).resumed = 1 ∧
      (c.throws = true → ¬ WentOn c (sched ++ rounds n)) := by
  have i := Inv.run c (sched ++ rounds n)
  have ho := run_over c sched n hn
  have hres : (St.run c (sched ++ rounds n)).destroyed = 1 → (St.run c (sched ++ rounds n)).resumed = 1 := by
    intro h
    rw [i.dst] at h
    have := i.once
    by_cases hr : (St.run c (sched ++ rounds n)).resumed = 0
    · rw [i.fr0 hr] at h; cases h
    · omega
  cases hs : c.suspends
  · simp only [Bool.false_eq_true, false_and, iff_false]
    rintro ⟨hu, hd⟩
    cases ht : c.throws
    · rw [immediate_ub hs ht _ (hres hd) ho.2] at hu; cases hu
    · rw [i.dst, (Flat.run hs ht _).frame] at hd; cases hd
  · cases ht : c.throws
    · have := C62_dropped c sched n hs ht hn
      simp only [Bool.false_eq_true, false_imp_iff, and_true, true_and]
      exact ⟨fun h => this.2.1 h.2, fun h => ⟨this.1, this.2.2 h⟩⟩
    · simp only [true_and, true_imp_iff]
      constructor
      · rintro ⟨-, hd⟩
        refine ⟨hres hd, fun hw => ?_⟩
        rw [i.dst, (Thrown.run ht hw).frame] at hd; cases hd
      · rintro ⟨hr, hw⟩
        have h := Held.run hs _ hw
        refine ⟨h.ub, ?_⟩
        cases hf : (St.run c (sched ++ rounds n)).frame
        · rw [i.dst, hf]; rfl
        · have := (h.pend hr hf).2
          rw [ho.2] at this
          rcases this with h | h | h
          · cases h
          · cases h
          · cases h.1

/-- A body that would throw, stopped at its suspension point: its frame is destroyed right. -/
example : (St.run ⟨true, true, true, true⟩ ([.C, .C, .T, .T, .T, .T, .T, .C] ++ rounds 13)).ub = false ∧
    (St.run ⟨true, true, true, true⟩ ([.C, .C, .T, .T, .T, .T, .T, .C] ++ rounds 13)).destroyed = 1 := by decide

/-- The frame of a body that throws is never destroyed. -/
theorem C62_violated_throws :
    (St.run ⟨true, true, false, false⟩ (rounds 13)).destroyed = 0 := by decide

/-- A coroutine it started is destroyed with the context, after the pool its frame is from. -/
theorem C62_violated_pool :
    (St.run ⟨true, true, false, true⟩ (rounds 13)).ub = true := by decide

/-- An object destroyed before the thread came to run leaves the frame behind: the handler
in the context owns the state that owns the context. -/
theorem C62_violated_dropped :
    (St.run ⟨true, false, true, false⟩ ([.C, .C, .C] ++ rounds 13)).destroyed = 0 := by decide

end Cobalt.Thr.Frame
