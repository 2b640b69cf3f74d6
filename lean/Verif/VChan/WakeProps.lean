import Verif.VChan.WakeStep
/-!
# C98: nobody sleeps while there is something to do

include/boost/cobalt/impl/channel.hpp:326-426 and src/channel.cpp:24-133.
-/
namespace Cobalt.VChan

open Chan (Status Tok)

/-- **C98**, as far as the code goes: if nobody cancels or interrupts an operation between its being woken and its
running, and the counter does not wrap around, then in every state with nothing scheduled a suspended read means that
no token is stored and no write is suspended, and a suspended write that there is no room and no read is suspended.

What is missing from `C98` are the two conditions; neither can be left out, see `C98_violated` and
`C98_overtaken_violated`. -/
theorem C98_partial (l : BitVec 64) (es : List Ev) (hu : (exec l es).ub = false)
    (hl : LeavesAll (St.init l) es) (hz : CountsAll (St.init l) es) : NoLostWakeUp (exec l es) := by
  rcases wk_exec es (Or.inr ⟨WF.init l, Wk.init l⟩) hl hz with h | ⟨h, v⟩
  · exact absurd (h.symm.trans hu) (by simp)
  · have h : WF (exec l es) none := h
    have v : Wk (exec l es) none := v
    intro hp
    have hr : ∀ i, ((exec l es).R i).status = .susp → i ∈ (exec l es).rq := fun i hi => by
      rcases h.rsusp i hi with h1 | h1 | h1
      · exact (h.rwait i h1).2
      · rw [hp] at h1; cases h1
      · cases h1
    have hw : ∀ i, ((exec l es).W i).status = .susp → i ∈ (exec l es).wq := fun i hi => by
      rcases h.wsusp i hi with h1 | h1 | h1
      · exact (h.wwait i h1).2
      · rw [hp] at h1; cases h1
      · cases h1
    refine ⟨fun i hi => ?_, fun i hi => ?_⟩
    · have hq := List.ne_nil_of_mem (hr i hi)
      have hb := v.r hq
      rw [hp] at hb
      refine ⟨by simpa using hb, fun k hk => ?_⟩
      rcases h.excl with e | e
      · exact hq e
      · exact List.ne_nil_of_mem (hw k hk) e
    · have hq := List.ne_nil_of_mem (hw i hi)
      have hb := v.w hq
      rw [hp] at hb
      refine ⟨by simpa using hb, fun k hk => ?_⟩
      rcases h.excl with e | e
      · exact List.ne_nil_of_mem (hr k hk) e
      · exact hq e

/-- Two consumers wait, two producers bring one token each, one consumer is cancelled before anything is woken. -/
def lively : List Ev :=
  [.mkR, .mkR, .mkR, .awaitR 0 true false [], .awaitR 1 true false [], .awaitR 2 true false [], .cancelR 1, .run 0,
   .mkW, .awaitW 0 true false [], .run 0]

example : (exec 2 lively).ub = false ∧ LeavesAll (St.init 2) lively ∧ CountsAll (St.init 2) lively ∧
    (exec 2 lively).posted = [] ∧
    ((exec 2 lively).R 2).status = .susp ∧ (exec 2 lively).n = 0 := by decide

/-- Two consumers wait; a producer stores a token and wakes the first; the first is cancelled before it
runs (`cancel_impl` only sets `cancelled` as the operation is not linked any more, impl/channel.hpp:325-336) and reports
the cancellation. The token stays, and the second consumer is not woken. -/
def sleeps : List Ev :=
  [.mkR, .mkR, .awaitR 0 true false [], .awaitR 1 true false [], .mkW, .awaitW 0 true false [], .cancelR 0, .run 0]

/-- The same when the first consumer is interrupted by its race. -/
def sleepsRace : List Ev :=
  [.mkR, .mkR, .awaitR 0 true false [], .awaitR 1 true false [], .mkW, .awaitW 0 true false [], .intR 0, .run 0]

/-- Two producers wait for space; a consumer takes a token and wakes the first, which is cancelled before it runs. There
is room, and the second producer is not woken. -/
def sleepsW : List Ev :=
  [.mkW, .awaitW 0 true false [], .mkW, .awaitW 1 true false [], .mkW, .awaitW 2 true false [],
   .mkR, .awaitR 0 true false [], .cancelW 1, .run 0]

/-- **C98** does not hold: with a token stored a consumer sleeps, and nothing is scheduled. -/
theorem C98_violated : ¬ C98 := by
  intro h
  have := (h 1 sleeps (by decide) (by decide)).1 1 (by decide)
  exact absurd this.1 (by decide)

/-- The consumer that sleeps was not told anything, the one that was woken reports the cancellation, and the write
reports success. -/
theorem C98_asleep : ((exec 1 sleeps).R 1).status = .susp ∧ (exec 1 sleeps).posted = [] ∧ (exec 1 sleeps).n = 1 ∧
    Obs.doneR 0 .aborted ∈ (exec 1 sleeps).log ∧ Obs.doneW 0 .ok ∈ (exec 1 sleeps).log := by decide

theorem C98_race_violated : (exec 1 sleepsRace).ub = false ∧ ¬ NoLostWakeUp (exec 1 sleepsRace) := by
  refine ⟨by decide, fun h => ?_⟩
  have := (h (by decide)).1 1 (by decide)
  exact absurd this.1 (by decide)

/-- A producer sleeps although there is room. -/
theorem C98_write_violated : (exec 1 sleepsW).ub = false ∧ ¬ NoLostWakeUp (exec 1 sleepsW) := by
  refine ⟨by decide, fun h => ?_⟩
  have := (h (by decide)).2 2 (by decide)
  exact absurd this.1 (by decide)

/-- Two consumers wait; a producer stores a token and wakes the first; a third consumer takes the token before the first
runs. The first then counts down from zero, and the second sleeps before a counter of 2^64 - 1. Nobody is cancelled. -/
def overtaken : List Ev :=
  [.mkR, .mkR, .awaitR 0 true false [], .awaitR 1 true false [], .mkW, .awaitW 0 true false [],
   .mkR, .awaitR 2 true false [], .run 0]

theorem C98_overtaken_violated : (exec 1 overtaken).ub = false ∧ LeavesAll (St.init 1) overtaken ∧
    ¬ CountsAll (St.init 1) overtaken ∧ (exec 1 overtaken).n = -1 ∧ ¬ NoLostWakeUp (exec 1 overtaken) := by
  refine ⟨by decide, by decide, by decide, by decide, fun h => ?_⟩
  have := (h (by decide)).1 1 (by decide)
  exact absurd this.1 (by decide)

end Cobalt.VChan
