import Verif.Pool.Bad
/-!
# C102: a pool of workers around a channel

include/boost/cobalt/impl/channel.hpp:98-201, 221-323.
-/
namespace Cobalt.Pool

open Chan (upd)

/-- A channel without a buffer is safe with any number of workers and producers, whatever the schedule. -/
theorem C102_unbuffered (es : List Ev) : (exec 0 es).Sound :=
  (sound_iff 0 es).2 (by
    obtain ⟨h, q⟩ := zero es (St.init 0) (PInv.init 0) Chan.I0.init ⟨rfl, by simp [St.init, Chan.St.init]⟩
    exact ⟨h.ub, q.noAss⟩)

/-- One worker and one producer are safe with any buffer, whatever the schedule. -/
theorem C102_pair (cap : Nat) (es : List Ev) (hw : workers es ≤ 1) (hp : producers es ≤ 1) : (exec cap es).Sound :=
  (sound_iff cap es).2 (by
    have h := pair es (St.init cap) (PInv.init cap) ⟨Chan.WF.init cap, Chan.TK.init cap, Chan.J.init cap⟩
      (by simpa [St.init] using hw) (by simpa [St.init] using hp)
    exact ⟨h.j.ub, h.j.noAss⟩)

theorem C102_no_worker (cap : Nat) (es : List Ev) (hw : workers es = 0) : (exec cap es).Sound :=
  (sound_iff cap es).2 (by
    have h := noR es (St.init cap) (PInv.init cap) ⟨rfl, rfl, rfl, rfl⟩ (by simpa [St.init] using hw)
    exact ⟨h.ub, h.ok⟩)

theorem C102_no_producer (cap : Nat) (es : List Ev) (hp : producers es = 0) : (exec cap es).Sound :=
  (sound_iff cap es).2 (by
    have h := noW es (St.init cap) (PInv.init cap) ⟨rfl, rfl, rfl, rfl, rfl⟩ (by simpa [St.init] using hp)
    exact ⟨h.ub, h.ok⟩)

/-- When a pool is safe: with no buffer, or with one worker and one producer (or nobody on one side). -/
def Safe (cap m p : Nat) : Prop := cap = 0 ∨ m = 0 ∨ p = 0 ∨ (m = 1 ∧ p = 1)

theorem C102_partial (cap : Nat) (es : List Ev) (h : Safe cap (workers es) (producers es)) : (exec cap es).Sound := by
  rcases h with h | h | h | h
  · subst h; exact C102_unbuffered es
  · exact C102_no_worker cap es h
  · exact C102_no_producer cap es h
  · exact C102_pair cap es (by omega) (by omega)

/-- Any other pool goes wrong already under a schedule as simple as can be: all are started, then the executor runs what
was posted, in order. -/
theorem C102_fails (cap m p : Nat) (h : ¬ Safe cap m p) :
    ∃ es, Simple es ∧ workers es ≤ m ∧ producers es ≤ p ∧ ¬ (exec cap es).Sound := by
  simp only [Safe, not_or, not_and] at h
  obtain ⟨h0, h1, h2, h3⟩ := h
  by_cases hm : 2 ≤ m
  · by_cases hc : cap = 1
    · subst hc
      refine ⟨twoWorkers1, ⟨_, _, rfl, ?_, ?_⟩, ?_, ?_, ?_⟩
      · simp
      · simp
      · simpa [twoWorkers1, workers] using hm
      · simp [twoWorkers1, producers]; omega
      · rw [sound_iff]; decide
    · refine ⟨twoWorkers, ⟨_, _, rfl, ?_, ?_⟩, ?_, ?_, ?_⟩
      · simp
      · simp
      · simpa [twoWorkers, workers] using hm
      · simp [twoWorkers, producers]; omega
      · rw [sound_iff, bad_workers (by omega)]; simp
  · have hp : 2 ≤ p := by omega
    by_cases hc : cap = 1
    · subst hc
      refine ⟨twoProducers1, ⟨_, _, rfl, ?_, ?_⟩, ?_, ?_, ?_⟩
      · simp
      · simp
      · simp [twoProducers1, workers]; omega
      · simpa [twoProducers1, producers] using hp
      · rw [sound_iff]; decide
    · obtain ⟨n, rfl⟩ : ∃ n, cap = n + 2 := ⟨cap - 2, by omega⟩
      refine ⟨twoProducers n, ⟨_, _, rfl, ?_, ?_⟩, ?_, ?_, ?_⟩
      · intro e he
        simp only [List.mem_append, List.mem_cons, List.mem_replicate, List.not_mem_nil, or_false] at he
        grind
      · intro e he
        simp only [List.mem_append, List.mem_cons, List.mem_replicate, List.not_mem_nil, or_false] at he
        grind
      · simp [twoProducers, workers, List.countP_append, List.countP_replicate]; omega
      · simpa [twoProducers, producers, List.countP_append, List.countP_replicate] using hp
      · rw [sound_iff, bad_producers]; simp

/-- **C102 exactly**: with `m` workers and `p` producers every schedule is safe just if there is no buffer or only one
of each. -/
theorem C102_exact (cap m p : Nat) :
    (∀ es, workers es ≤ m → producers es ≤ p → (exec cap es).Sound) ↔ Safe cap m p := by
  constructor
  · intro h
    refine Classical.byContradiction fun hn => ?_
    obtain ⟨es, _, h1, h2, h3⟩ := C102_fails cap m p hn
    exact h3 (h es h1 h2)
  · intro h es hw hp
    rcases h with h | h | h | h
    · subst h; exact C102_unbuffered es
    · exact C102_no_worker cap es (by omega)
    · exact C102_no_producer cap es (by omega)
    · exact C102_pair cap es (by omega) (by omega)

/-- The same if only the simplest schedules are looked at. -/
theorem C102_simple_exact (cap m p : Nat) :
    (∀ es, Simple es → workers es ≤ m → producers es ≤ p → (exec cap es).Sound) ↔ Safe cap m p := by
  constructor
  · intro h
    refine Classical.byContradiction fun hn => ?_
    obtain ⟨es, h0, h1, h2, h3⟩ := C102_fails cap m p hn
    exact h3 (h es h0 h1 h2)
  · intro h es _
    exact (C102_exact cap m p).2 h es

theorem C102_violated : ¬ C102 := fun h => by
  have := (sound_iff 1 twoWorkers1).1 (h 1 twoWorkers1)
  exact absurd this (by decide)

/-- No job is done twice. -/
theorem C102_once (cap : Nat) (es : List Ev) (hu : (exec cap es).ch.ub = false) :
    (Chan.delivered (exec cap es).ch.log).Nodup := by
  obtain ⟨l, hl, _⟩ := trace cap es
  rw [hl] at hu ⊢
  exact (Chan.C04_no_invention cap l hu).1

theorem leaves_plain (l : List Chan.Ev) : ∀ c : Chan.St, (∀ x ∈ l, plain x) → Chan.LeavesAll c l := by
  induction l with
  | nil => exact fun _ _ => trivial
  | cons x l ih =>
    intro c h
    refine ⟨?_, ih _ fun y hy => h y (by simp [hy])⟩
    have hx := h x (by simp)
    cases x <;> simp_all [plain, Chan.Leaves]

/-- When a sound pool with at least one worker has come to rest all producers have written all their jobs, and every
job written has been done. -/
theorem C102_done (cap : Nat) (es : List Ev) (hs : (exec cap es).Sound) (hr : (exec cap es).rest)
    (hw : 0 < (exec cap es).nw) :
    (∀ i, i < (exec cap es).np → (exec cap es).todo i = 0) ∧
    ∀ j, j < (exec cap es).ch.nextW → j ∈ Chan.delivered (exec cap es).ch.log := by
  have hu := hs.1
  have inv : PInv (exec cap es) := by
    rcases PInv.steps es _ (PInv.init cap) with h | h
    · exact absurd (h.symm.trans hu) (by simp)
    · exact h
  obtain ⟨l, hl, hp⟩ := trace cap es
  have wake := Chan.C97_partial cap l (by rw [← hl]; exact hu) (leaves_plain l _ hp)
  rw [← hl] at wake
  obtain ⟨wr, -⟩ := wake hr.2.2
  obtain ⟨i, hi⟩ : ∃ i, ((exec cap es).ch.R i).status = .susp := by
    rcases inv.place (.w 0) hw with h | h | ⟨t, h1, h2⟩ | h
    · rw [hr.1] at h; cases h
    · rw [hr.2.1] at h; cases h
    · cases t with
      | r i => exact ⟨i, h1⟩
      | w i => simp [St.own] at h2
    · exact h.elim
  obtain ⟨hb, hn⟩ := wr i hi
  refine ⟨fun k hk => ?_, fun j hj => ?_⟩
  · rcases inv.place (.p k) hk with h | h | ⟨t, h1, h2⟩ | h
    · rw [hr.1] at h; cases h
    · rw [hr.2.1] at h; cases h
    · cases t with
      | r i => simp [St.own] at h2
      | w i => exact absurd h1 (hn i)
    · exact h
  · rcases inv.jobs j hj with h | h
    · exact absurd h (hn j)
    · have hk := hs.2 j
      refine Classical.byContradiction fun hd => hk ⟨.inr h, by rw [hb]; simp, hd, ?_⟩
      rintro ⟨r, h1, h2⟩
      have hq := (inv.pl.wf.rsusp r h1)
      rcases hq with hq | hq | hq
      · have := (inv.pl.wf.rlink r (inv.pl.wf.rwait r hq).2).1
        rw [this] at h2; cases h2
      · rw [hr.2.2] at hq; cases hq
      · cases hq

/-- Three workers and two producers around a channel without a buffer; one job takes its time. -/
def busy : List Ev :=
  [.worker, .go, .worker, .go, .worker, .go, .producer 2, .go, .leave, .producer 2, .go, .go,
   .run 0, .go, .go, .run 0, .go, .go, .run 0, .go, .run 0, .go, .back 0, .go]

example : workers busy = 3 ∧ producers busy = 2 ∧ (exec 0 busy).rest ∧ 0 < (exec 0 busy).nw ∧
    (exec 0 busy).ch.nextW = 4 ∧ Chan.delivered (exec 0 busy).ch.log = [0, 1, 2, 3] := by
  refine ⟨?_, ?_, ⟨?_, ?_, ?_⟩, ?_, ?_, ?_⟩ <;> decide

end Cobalt.Pool
