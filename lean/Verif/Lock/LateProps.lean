import Verif.Lock.Late
/-!
# C99: from when on too many coroutines come in

include/boost/cobalt/impl/channel.hpp:326-426, src/channel.cpp.
-/
namespace Cobalt.Lock

/-- `us` are those inside. -/
def Are (s : St) (us : List Nat) : Prop := us.Nodup ∧ ∀ u, u ∈ us ↔ s.ph u = .inside

/-- **C99**, exactly: if `us` are inside and `woken` coroutines are scheduled, then after everything scheduled has run,
`us.length + woken` are inside. -/
theorem C99_drained (k : BitVec 64) (users : Nat) (es : List Ev) (hN : users < 2 ^ 64) (us : List Nat)
    (hu : Are (exec k users es) us) :
    let s := exec k users es
    let s' := s.steps ((List.replicate s.ch.posted.length 0).map .run)
    s'.ch.posted = [] ∧ ∃ vs, Are s' vs ∧ vs.length = us.length + woken s := by
  obtain ⟨l, h, _⟩ := Inv.steps es (Inv.init k users) hN
  have h : Inv k (exec k users es) l := h
  have hus : (exec k users es).users < 2 ^ 64 := by
    have : ∀ (es : List Ev) (s : St), (s.steps es).users = s.users := by
      intro es
      induction es with
      | nil => exact fun _ => rfl
      | cons e es ih => exact fun s => ih (s.step e)
    show ((St.init k users).steps es).users < _
    rw [this]; exact hN
  generalize exec k users es = s at *
  intro s1 s'
  have he : s'.ch.posted = [] := h.empties _ hus rfl
  refine ⟨he, ?_⟩
  obtain ⟨l', h', _⟩ := Inv.steps ((List.replicate s1.ch.posted.length 0).map .run) h hus
  refine ⟨l', ⟨h'.nd, h'.mem⟩, ?_⟩
  have ht := h.totals (List.replicate s1.ch.posted.length 0) hus
  have hl : l.length = us.length := Nat.le_antisymm
    (List.subperm_of_subset h.nd fun u hx => (hu.2 u).2 ((h.mem u).1 hx)).length_le
    (List.subperm_of_subset hu.1 fun u hx => (h.mem u).2 ((hu.2 u).1 hx)).length_le
  have hc' : s'.ch.n.toNat = l'.length := h'.cnt
  have ht : s'.ch.n.toNat + s'.ch.posted.countP s'.ch.puts = s.ch.n.toNat + s.ch.posted.countP s.ch.puts := ht
  rw [he, hc', h.cnt, ← woken_eq h.ok] at ht
  simpa [hl] using ht

/-- **C99**, exactly: running what is scheduled, in any order and as much of it as one likes, brings more than `k`
coroutines inside if and only if those inside and those woken are more than `k`. So too many come in not when the woken
coroutine runs, but when another one has come in before it. -/
theorem C99_late (k : BitVec 64) (users : Nat) (es : List Ev) (hN : users < 2 ^ 64) (us : List Nat)
    (hu : Are (exec k users es) us) :
    (∃ ms : List Nat, ¬ Excl k ((exec k users es).steps (ms.map .run))) ↔
      k.toNat < us.length + woken (exec k users es) := by
  obtain ⟨l, h, _⟩ := Inv.steps es (Inv.init k users) hN
  have h : Inv k (exec k users es) l := h
  have hus : (exec k users es).users < 2 ^ 64 := by
    have : ∀ (es : List Ev) (s : St), (s.steps es).users = s.users := by
      intro es
      induction es with
      | nil => exact fun _ => rfl
      | cons e es ih => exact fun s => ih (s.step e)
    show ((St.init k users).steps es).users < _
    rw [this]; exact hN
  have hl : l.length = us.length := Nat.le_antisymm
    (List.subperm_of_subset h.nd fun u hx => (hu.2 u).2 ((h.mem u).1 hx)).length_le
    (List.subperm_of_subset hu.1 fun u hx => (h.mem u).2 ((hu.2 u).1 hx)).length_le
  constructor
  · rintro ⟨ms, hx⟩
    refine Classical.byContradiction fun hle => hx fun vs hnd hvs => ?_
    obtain ⟨l', h', _⟩ := Inv.steps (ms.map .run) h hus
    have ht := h.totals ms hus
    have : vs.length ≤ l'.length :=
      (List.subperm_of_subset hnd fun u hx => (h'.mem u).2 (hvs u hx)).length_le
    rw [h'.cnt, h.cnt, ← woken_eq h.ok] at ht
    omega
  · intro hlt
    obtain ⟨_, vs, hv, hvl⟩ := C99_drained k users es hN us hu
    refine ⟨List.replicate (exec k users es).ch.posted.length 0, fun hx => ?_⟩
    have := hx vs hv.1 fun u hu => (hv.2 u).1 hu
    omega

/-- Coroutine 1 has been woken, and coroutine 0 has come in again: one inside, one woken, one place. -/
example : Are (exec 1 2 (twice.take 4)) [0] ∧ woken (exec 1 2 (twice.take 4)) = 1 := by
  refine ⟨⟨by decide, fun u => ?_⟩, by decide⟩
  match u with
  | 0 => decide
  | 1 => decide
  | u + 2 =>
    have : (exec 1 2 (twice.take 4)).ph (u + 2) = .out := by rfl
    rw [this]; simp

end Cobalt.Lock
