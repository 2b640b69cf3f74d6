import Verif.VChan.Turn
import Verif.VChan.Props
/-!
# C57: producers and consumers that take turns
-/
namespace Cobalt.VChan

/-- **C57** for any number of producers and consumers, with cancelled and interrupted operations and transactions, as
long as they take turns: nobody begins an operation while another one was woken and has not been resumed yet. Then the
tokens add up, without the counter running under, and never more than the limit are stored.

Missing for the full property: without turns it is false (`C57_underflow`, `C57_limit_exceeded`). -/
theorem C57_turns_partial (limit : BitVec 64) (es : List Ev) (hs : Turns (St.init limit) es)
    (ho : (exec limit es).closed = false) (hu : (exec limit es).ub = false) :
    reads (exec limit es).log + (exec limit es).n.toNat + (exec limit es).handed =
      writes (exec limit es).log + (exec limit es).given ∧
    (exec limit es).n.toNat ≤ limit.toNat := by
  have k := turns_steps (WF.init limit)
    ⟨T.init limit, by simp [St.v, St.init, St.given, St.handed, heldCount, reads, writes]⟩ es hs ho hu
  refine ⟨?_, ?_⟩
  · have := k.eq
    simp only [St.v] at this
    unfold exec
    omega
  · have := k.t.lim
    unfold exec
    rw [limit_steps] at this
    exact this

/-- **C57**, the channel as a lock: a coroutine takes the lock by writing and gives it back by reading. If nobody asks
for it while another one was woken, then at most `limit` writes have succeeded that no read has followed. -/
theorem C57_lock_partial (limit : BitVec 64) (es : List Ev) (hs : Turns (St.init limit) es)
    (ho : (exec limit es).closed = false) (hu : (exec limit es).ub = false) :
    writes (exec limit es).log ≤ reads (exec limit es).log + limit.toNat + (exec limit es).handed := by
  have h := C57_turns_partial limit es hs ho hu
  omega

/-- Three coroutines and a lock: the second and the third wait, each gets it when the one before gives it back. -/
def lock3 : List Ev :=
  [.mkW, .awaitW 0 true false [], .mkW, .awaitW 1 true false [], .mkW, .awaitW 2 true false [],
   .mkR, .awaitR 0 true false [], .run 0, .mkR, .awaitR 1 true false [], .run 0]

example : Turns (St.init 1) lock3 ∧ ¬ Spsc (St.init 1) lock3 ∧ (exec 1 lock3).closed = false ∧ (exec 1 lock3).ub = false ∧
    writes (exec 1 lock3).log = 3 ∧ reads (exec 1 lock3).log = 2 ∧ (exec 1 lock3).n = 1 := by
  refine ⟨by decide, ?_, by decide⟩
  intro h
  exact absurd h.2.2.2.2.2.1 (fun h => h 1 (by decide))

/-- Without turns the lock is held twice: the third coroutine asks for it between the wake-up of the second and its
resumption. -/
theorem C57_lock_violated :
    let es : List Ev := [.mkW, .awaitW 0 true false [], .mkW, .awaitW 1 true false [], .mkR, .awaitR 0 true false [],
      .mkW, .awaitW 2 true false [], .run 0]
    Tidy (St.init 1) es ∧ ¬ Turns (St.init 1) es ∧ (exec 1 es).ub = false ∧ (exec 1 es).asserted = false ∧
    (exec 1 es).handed = 0 ∧ writes (exec 1 es).log = reads (exec 1 es).log + 2 := by decide

end Cobalt.VChan
