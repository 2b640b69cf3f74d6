import Verif.Chan.WakeStep
/-!
# C97: nobody sleeps while there is something to do

include/boost/cobalt/impl/channel.hpp:29-100, 180-330.
-/
namespace Cobalt.Chan

/-- **C97**, as far as the code goes: if nobody cancels or interrupts an operation between its being woken and its
running, then in every state with nothing scheduled a suspended read means that nothing is buffered and no write is
suspended, and a suspended write that the buffer is full and no read is suspended.

What is missing from `C97` is the condition `LeavesAll`; it cannot be left out, see `C97_violated`. -/
theorem C97_partial (cap : Nat) (es : List Ev) (hu : (exec cap es).ub = false)
    (hl : LeavesAll (St.init cap) es) : NoLostWakeUp (exec cap es) := by
  rcases wk_exec es (Or.inr ⟨WF.init cap, Wk.init cap⟩) hl with h | ⟨h, v⟩
  · exact absurd (h.symm.trans hu) (by simp)
  · have h : WF (exec cap es) none := h
    have v : Wk (exec cap es) none := v
    intro hp
    have hr : ∀ i, ((exec cap es).R i).status = .susp → i ∈ (exec cap es).rq := fun i hi => by
      rcases h.rsusp i hi with h1 | h1 | h1
      · exact (h.rwait i h1).2
      · rw [hp] at h1; cases h1
      · cases h1
    have hw : ∀ i, ((exec cap es).W i).status = .susp → i ∈ (exec cap es).wq := fun i hi => by
      rcases h.wsusp i hi with h1 | h1 | h1
      · exact (h.wwait i h1).2
      · rw [hp] at h1; cases h1
      · cases h1
    refine ⟨fun i hi => ?_, fun i hi => ?_⟩
    · have hq := List.ne_nil_of_mem (hr i hi)
      have hb := v.r hq
      rw [hp] at hb
      refine ⟨List.length_eq_zero_iff.1 (by simpa using hb), fun k hk => ?_⟩
      rcases h.excl with e | e
      · exact hq e
      · exact List.ne_nil_of_mem (hw k hk) e
    · have hq := List.ne_nil_of_mem (hw i hi)
      have hb := v.w hq
      rw [hp] at hb
      refine ⟨Nat.le_antisymm h.len (by simpa using hb), fun k hk => ?_⟩
      rcases h.excl with e | e
      · exact List.ne_nil_of_mem (hr k hk) e
      · exact hq e

/-- Two consumers wait, two producers bring one value each, one consumer is cancelled before anything is woken. -/
def lively : List Ev :=
  [.mkR, .mkR, .mkR, .awaitR 0 true false [], .awaitR 1 true false [], .awaitR 2 true false [], .cancelR 1, .run 0,
   .mkW, .awaitW 0 true false [], .run 0]

example : (exec 2 lively).ub = false ∧ LeavesAll (St.init 2) lively ∧ (exec 2 lively).posted = [] ∧
    ((exec 2 lively).R 2).status = .susp ∧ (exec 2 lively).buf = [] := by decide

/-- Two consumers wait; a producer puts a value into the buffer and wakes the first; the first is cancelled before it
runs (`cancel_impl` only sets `cancelled` as the operation is not linked any more, impl/channel.hpp:80-94) and reports
the cancellation. The value stays in the buffer, and the second consumer is not woken. -/
def sleeps : List Ev :=
  [.mkR, .mkR, .awaitR 0 true false [], .awaitR 1 true false [], .mkW, .awaitW 0 true false [], .cancelR 0, .run 0]

/-- The same when the first consumer is interrupted by its race. -/
def sleepsRace : List Ev :=
  [.mkR, .mkR, .awaitR 0 true false [], .awaitR 1 true false [], .mkW, .awaitW 0 true false [], .intR 0, .run 0]

/-- Two producers wait for space; a consumer takes a value and wakes the first, which is cancelled before it runs. There
is space, and the second producer is not woken. -/
def sleepsW : List Ev :=
  [.mkW, .awaitW 0 true false [], .mkW, .awaitW 1 true false [], .mkW, .awaitW 2 true false [],
   .mkR, .awaitR 0 true false [], .cancelW 1, .run 0]

/-- **C97** does not hold: with the value of one producer in the buffer a consumer sleeps, and nothing is scheduled. -/
theorem C97_violated : ¬ C97 := by
  intro h
  have := (h 1 sleeps (by decide) (by decide)).1 1 (by decide)
  exact absurd this.1 (by decide)

/-- The consumer that sleeps was not told anything, the one that was woken reports the cancellation, and the write
reports success. -/
theorem C97_asleep : ((exec 1 sleeps).R 1).status = .susp ∧ (exec 1 sleeps).posted = [] ∧ (exec 1 sleeps).buf = [0] ∧
    Obs.doneR 0 .aborted ∈ (exec 1 sleeps).log := by decide

theorem C97_race_violated : (exec 1 sleepsRace).ub = false ∧ ¬ NoLostWakeUp (exec 1 sleepsRace) := by
  refine ⟨by decide, fun h => ?_⟩
  have := (h (by decide)).1 1 (by decide)
  exact absurd this.1 (by decide)

/-- A producer sleeps although there is space. -/
theorem C97_write_violated : (exec 1 sleepsW).ub = false ∧ ¬ NoLostWakeUp (exec 1 sleepsW) := by
  refine ⟨by decide, fun h => ?_⟩
  have := (h (by decide)).2 2 (by decide)
  exact absurd this.1 (by decide)

end Cobalt.Chan
