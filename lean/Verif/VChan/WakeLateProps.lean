import Verif.VChan.WakeLateLemmas
/-!
# C98: exactly which states leave somebody asleep

include/boost/cobalt/impl/channel.hpp:326-426 and src/channel.cpp:24-133.
-/
namespace Cobalt.VChan

open Chan (Status Tok)

/-- **C98**, exact and early: take any reachable state and let the executor run what is scheduled, in any order, until
nothing is left. Somebody then sleeps before something that is there if and only if the state one started from has a
suspended read behind all those the posted writes are going to wake and more tokens than are going to be taken, or a
suspended write behind all those the posted reads are going to wake and more room than is going to be filled. -/
theorem C98_exact (l : BitVec 64) (es : List Ev) (ms : List Nat)
    (hu : ((exec l es).steps (ms.map .run)).ub = false)
    (hp : ((exec l es).steps (ms.map .run)).posted = [])
    (hz : CountsAll (exec l es) (ms.map .run)) :
    NoLostWakeUp ((exec l es).steps (ms.map .run)) ↔ ¬ (SleepR (exec l es) ∨ SleepW (exec l es)) := by
  have h : WF (exec l es) none := (WF.exec l es).resolve_left (by rw [steps_ub _ hu]; simp)
  obtain ⟨a, b, c⟩ := sleep_runs ms h hu hz
  rw [noLost_iff a hp, b, c]

/-- In particular the order in which the executor runs what is scheduled does not matter. -/
theorem C98_any_order (l : BitVec 64) (es : List Ev) (ms ms' : List Nat)
    (hu : ((exec l es).steps (ms.map .run)).ub = false) (hu' : ((exec l es).steps (ms'.map .run)).ub = false)
    (hp : ((exec l es).steps (ms.map .run)).posted = []) (hp' : ((exec l es).steps (ms'.map .run)).posted = [])
    (hz : CountsAll (exec l es) (ms.map .run)) (hz' : CountsAll (exec l es) (ms'.map .run)) :
    NoLostWakeUp ((exec l es).steps (ms.map .run)) ↔ NoLostWakeUp ((exec l es).steps (ms'.map .run)) := by
  rw [C98_exact l es ms hu hp hz, C98_exact l es ms' hu' hp' hz']

/-- Three consumers wait, two producers bring a token each and wake the first two, the first is cancelled. -/
def tardy : List Ev :=
  [.mkR, .mkR, .mkR, .awaitR 0 true false [], .awaitR 1 true false [], .awaitR 2 true false [],
   .mkW, .awaitW 0 true false [], .mkW, .awaitW 1 true false [], .cancelR 0]

/-- The third is left asleep, whatever runs first. -/
example : SleepR (exec 2 tardy) := ⟨⟨2, by decide, by decide⟩, by decide⟩

example : ((exec 2 tardy).steps ([0, 0].map .run)).ub = false ∧ ((exec 2 tardy).steps ([0, 0].map .run)).posted = [] ∧
    CountsAll (exec 2 tardy) ([0, 0].map .run) ∧
    ((exec 2 tardy).steps ([1, 0].map .run)).ub = false ∧ ((exec 2 tardy).steps ([1, 0].map .run)).posted = [] ∧
    CountsAll (exec 2 tardy) ([1, 0].map .run) := by decide

/-- Without the cancellation nobody is. -/
example : ¬ (SleepR (exec 2 (tardy.take 10)) ∨ SleepW (exec 2 (tardy.take 10))) := by
  rintro (⟨_, h⟩ | ⟨⟨i, h, _⟩, _⟩)
  · exact absurd h (by decide)
  · rw [show (exec 2 (tardy.take 10)).wq = [] by decide] at h; simp at h

/-- A channel without storage: two writers wait, a reader is served directly by the first. -/
def spared : List Ev :=
  [.mkW, .awaitW 0 true false [], .mkW, .awaitW 1 true false [], .mkR, .awaitR 0 true false []]

/-- The second writer rightly waits on: there is no room. -/
example : ¬ SleepW (exec 0 spared) ∧ (exec 0 spared).wq = [1] ∧ (exec 0 spared).posted = [.r 0] := by
  refine ⟨fun h => absurd h.2 (by decide), by decide, by decide⟩

end Cobalt.VChan
