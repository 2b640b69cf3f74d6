import Verif.Lock.Run
/-!
# C99: a `channel<void>` as a semaphore

include/boost/cobalt/channel.hpp:209-321, include/boost/cobalt/impl/channel.hpp:326-426, src/channel.cpp.
-/
namespace Cobalt.Lock

open Chan (Status Tok upd)
open VChan (WF Obs Res)

/-- However the coroutines use the channel, nothing is undefined, nobody has to wait to leave, and the counter of the
channel is the number of coroutines inside. -/
theorem C99_count (k : BitVec 64) (users : Nat) (es : List Ev) (hN : users < 2 ^ 64) :
    (exec k users es).ch.ub = false ∧ (∀ u j, (exec k users es).ph u ≠ .leave j) ∧
    ∃ us : List Nat, us.Nodup ∧ (∀ u, u ∈ us ↔ (exec k users es).ph u = .inside) ∧
      (exec k users es).ch.n.toNat = us.length := by
  obtain ⟨l, h, _⟩ := Inv.steps es (Inv.init k users) hN
  exact ⟨h.ok.ub, h.stays, l, h.nd, h.mem, h.cnt⟩

/-- **C99**, mutual exclusion, as far as the code goes: at most `k` coroutines are inside, provided that no coroutine
comes in without waiting while those woken and scheduled need all the room.

What is missing from `C99` is the condition `PoliteAll`; without it see `C99_violated`. -/
theorem C99_excl_partial (k : BitVec 64) (users : Nat) (es : List Ev) (hN : users < 2 ^ 64)
    (hp : PoliteAll (St.init k users) es) : Excl k (exec k users es) := by
  obtain ⟨l, h, hm⟩ := Inv.steps es (Inv.init k users) hN
  have hr := hm (by simp [Room, St.init, VChan.St.init]) hp
  have hr : (exec k users es).ch.n.toNat + List.countP _ (exec k users es).ch.posted ≤
    (exec k users es).ch.limit.toNat := hr
  have hlim : (exec k users es).ch.limit = k := h.limit
  have hc : (exec k users es).ch.n.toNat = l.length := h.cnt
  rw [hlim] at hr
  intro us hnd hus
  have : us.length ≤ l.length := (List.subperm_of_subset hnd fun u hu => (h.mem u).2 (hus u hu)).length_le
  omega

/-- **C99**, nobody waits for nothing, as far as the code goes: if no coroutine is cancelled between its wake-up and its
resumption, then with nothing scheduled a coroutine that waits to come in means that at least `k` are inside.

What is missing from `C99` is the condition `SparesAll`; without it see `C99_asleep_violated`. -/
theorem C99_served_partial (k : BitVec 64) (users : Nat) (es : List Ev) (hN : users < 2 ^ 64)
    (hs : SparesAll (St.init k users) es) : Served k (exec k users es) := by
  obtain ⟨l, h, _⟩ := Inv.steps es (Inv.init k users) hN
  have hw := Inv.wks es (Inv.init k users) hN hs (VChan.Wk.init k)
  have h : Inv k (exec k users es) l := h
  have hw : VChan.Wk (exec k users es).ch none := hw
  intro hpo u i hu
  refine ⟨l, h.nd, fun u hu => (h.mem u).1 hu, ?_⟩
  have hq : i ∈ (exec k users es).ch.wq := by
    rcases h.ok.wf.wsusp i (h.wait u i hu) with h1 | h1 | h1
    · exact (h.ok.wf.wwait i h1).2
    · rw [hpo] at h1; cases h1
    · cases h1
  have := hw.w (List.ne_nil_of_mem hq)
  rw [hpo, h.limit, h.cnt] at this
  simpa using this

/-- Three coroutines, one place; everybody gets in, one is cancelled while it waits. -/
def fair : List Ev :=
  [.acquire 0 true, .acquire 1 true, .acquire 2 true, .acquire 3 true, .cancel 2, .run 0, .release 0 true, .run 0,
   .acquire 0 true]

example : PoliteAll (St.init 1 4) fair ∧ SparesAll (St.init 1 4) fair ∧ (exec 1 4 fair).ph 1 = .inside ∧
    (exec 1 4 fair).ph 2 = .out ∧ (exec 1 4 fair).ph 3 = .wait 3 ∧ (exec 1 4 fair).ph 0 = .wait 4 ∧
    (exec 1 4 fair).ch.posted = [] := by decide

/-- Two coroutines that do `for (;;) { co_await sem.write(); work; co_await sem.read(); }` with one place: coroutine 0
leaves and wakes coroutine 1, but comes in again, without being suspended, before coroutine 1 runs. -/
def twice : List Ev := [.acquire 0 true, .acquire 1 true, .release 0 true, .acquire 0 true, .run 0]

/-- **C99** does not hold: both are inside, and nobody was cancelled. -/
theorem C99_violated : ¬ C99 := by
  intro h
  have := (h 1 2 twice (by decide)).1 [0, 1] (by decide) (by decide)
  exact absurd this (by decide)

theorem C99_two_inside : SparesAll (St.init 1 2) twice ∧ (exec 1 2 twice).ph 0 = .inside ∧
    (exec 1 2 twice).ph 1 = .inside := by decide

/-- A coroutine leaves and wakes the next one, which is cancelled before it runs; the one behind it is not woken. -/
def forgotten : List Ev := [.acquire 0 true, .acquire 1 true, .acquire 2 true, .release 0 true, .cancel 1, .run 0]

/-- **C99** does not hold: nobody is inside, nothing is scheduled, and coroutine 2 waits. -/
theorem C99_asleep_violated : PoliteAll (St.init 1 3) forgotten ∧ (exec 1 3 forgotten).ch.posted = [] ∧
    (exec 1 3 forgotten).ph 0 = .out ∧ (exec 1 3 forgotten).ph 1 = .out ∧ (exec 1 3 forgotten).ph 2 = .wait 2 ∧
    ¬ Served 1 (exec 1 3 forgotten) := by
  refine ⟨by decide, by decide, by decide, by decide, by decide, fun h => ?_⟩
  obtain ⟨us, _, hi, hl⟩ := h (by decide) 2 2 (by decide)
  match us, hl with
  | u :: _, _ =>
    have hu := hi u (by simp)
    by_cases h3 : u < 3
    · have : u = 0 ∨ u = 1 ∨ u = 2 := by omega
      rcases this with rfl | rfl | rfl <;> exact absurd hu (by decide)
    · obtain ⟨l, hv, _⟩ := Inv.steps forgotten (Inv.init 1 3) (by decide)
      exact h3 (hv.few u (by
        have hu : ((St.init 1 3).steps forgotten).ph u = .inside := hu
        rw [hu]; simp))

end Cobalt.Lock
