import Verif.Lock.TurnLemmas
import Verif.Lock.LateProps
/-!
# C128: nobody starves at a semaphore
-/
namespace Cobalt.Lock

open Chan (Tok)

/-- While a coroutine waits, the others can give back only so many places: whatever they do, and whoever is cancelled. -/
theorem C128_holds : C128 := by
  intro k users es es' u i us hN hnd hus hw
  obtain ⟨l, h, _⟩ := Inv.steps es (Inv.init k users) hN
  have h : Inv k (exec k users es) l := h
  have hlen : l.length = us.length := Nat.le_antisymm
    (List.subperm_of_subset h.nd fun v hx => (hus v).2 ((h.mem v).1 hx)).length_le
    (List.subperm_of_subset hnd fun v hx => (h.mem v).2 ((hus v).1 hx)).length_le
  have hU : (exec k users es).users < 2 ^ 64 := by rw [exec_users]; exact hN
  have := owed_steps es' h hU hw
  unfold owed at this
  rw [h.cnt, h.limit, ← woken_eq h.ok, hlen] at this
  exact this

/-- Once more places than that have been given back, it is no longer waiting: it has been woken. -/
theorem C128_woken (k : BitVec 64) (users : Nat) (es es' : List Ev) (u i : Nat) (us : List Nat) (hN : users < 2 ^ 64)
    (hnd : us.Nodup) (hus : ∀ v, v ∈ us ↔ (exec k users es).ph v = .inside)
    (hg : 2 * ahead (exec k users es) i + woken (exec k users es) + (us.length - k.toNat) <
      gives (exec k users es) es') :
    ∃ n, ¬ Waits ((exec k users es).steps (es'.take n)) u i := by
  refine Classical.byContradiction fun hc => ?_
  have hall : ∀ (es' : List Ev) (s : St), (∀ n, Waits (s.steps (es'.take n)) u i) → WaitsAll s u i es' := by
    intro es'
    induction es' with
    | nil => intro s h; exact h 0
    | cons e es' ih =>
      intro s h
      exact ⟨h 0, ih _ fun n => h (n + 1)⟩
  have := C128_holds k users es es' u i us hN hnd hus
    (hall _ _ fun n => Classical.byContradiction fun hn => hc ⟨n, hn⟩)
  omega

/-- If nobody comes in past those who wait, each place given back brings the next of them in. -/
theorem C128_polite (k : BitVec 64) (users : Nat) (es es' : List Ev) (u i : Nat) (hN : users < 2 ^ 64)
    (hp : PoliteAll (St.init k users) (es ++ es')) (hw : WaitsAll (exec k users es) u i es') :
    gives (exec k users es) es' ≤ ahead (exec k users es) i := by
  have key : ∀ (es' : List Ev) (s : St) (l : List Nat), Inv k s l → s.users < 2 ^ 64 → Room s → PoliteAll s es' →
      WaitsAll s u i es' → gives s es' ≤ ahead s i := by
    intro es'
    induction es' with
    | nil => intros; exact Nat.zero_le _
    | cons e es' ih =>
      intro s l h hU hr hp hw
      obtain ⟨l1, h1, hroom, _⟩ := h.step hU e
      have hu : (s.step e).users < 2 ^ 64 := hU
      have i1 := ih _ _ h1 hu (hroom hr hp.1) hp.2 hw.2
      have hr' : s.ch.n.toNat + s.ch.posted.countP s.ch.puts ≤ s.ch.limit.toNat := hr
      have := ahead_step h hU e hw.1 hw.2.head (by omega)
      unfold gives
      omega
  obtain ⟨l, h, hroom⟩ := Inv.steps es (Inv.init k users) hN
  have hU : (exec k users es).users < 2 ^ 64 := by rw [exec_users]; exact hN
  obtain ⟨p1, p2⟩ := politeAll_append es hp
  exact key es' _ l h hU (hroom (Room.init k users) p1) p2 hw

/-! The hypotheses are met, and the bounds are reached. -/

/-- One place; 0 is inside, 1 and 2 wait. -/
def queue : List Ev := [.acquire 0 true, .acquire 1 true, .acquire 2 true]

/-- 0 leaves and comes back past 1, which was woken and comes in as well; 0 leaves again. -/
def overtake : List Ev := [.release 0 true, .acquire 0 true, .run 0, .release 0 true]

/-- 1 is before 2, and two places are given back while 2 waits: as many as there can be. -/
example : WaitsAll (exec 1 3 queue) 2 2 overtake ∧ gives (exec 1 3 queue) overtake = 2 ∧
    ahead (exec 1 3 queue) 2 = 1 ∧ woken (exec 1 3 queue) = 0 ∧ Are (exec 1 3 queue) [0] := by
  refine ⟨by decide, by decide, by decide, by decide, by simp, fun u => ?_⟩
  match u with
  | 0 => decide
  | 1 => decide
  | 2 => decide
  | u + 3 =>
    have : (exec 1 3 queue).ph (u + 3) = .out := by rfl
    rw [this]; simp

/-- … and with the next one 2 is woken. -/
example : ¬ Waits ((exec 1 3 queue).steps (overtake ++ [.release 1 true])) 2 2 := by decide

/-- Politely, one place is given back while 2 waits. -/
example : PoliteAll (St.init 1 3) (queue ++ [.release 0 true, .run 0]) ∧
    WaitsAll (exec 1 3 queue) 2 2 [.release 0 true, .run 0] ∧
    gives (exec 1 3 queue) [.release 0 true, .run 0] = 1 ∧ ahead (exec 1 3 queue) 2 = 1 := by decide

end Cobalt.Lock
