import Verif.Gen.ChainSpec
import Verif.Gen.ForLemmas
/-! The invariant of a chain of generators. -/
namespace Cobalt.Gen

open Prom (upd upd_apply)

namespace St

theorem takeResult_keeps (s : St) (a : Nat) (w : Aw) (v : Nat) :
    (s.takeResult a w v).lazy = s.lazy ∧ (s.takeResult a w v).recv = s.recv ∧
    (s.phase ≠ .parked → (s.takeResult a w v).phase = s.phase) := by
  refine ⟨rfl, rfl, fun h => ?_⟩
  simp [takeResult, give, h]

theorem resumeAw_keeps (s : St) (a : Nat) :
    (s.resumeAw a).lazy = s.lazy ∧ (s.resumeAw a).recv = s.recv ∧ (s.phase ≠ .parked → (s.resumeAw a).phase = s.phase) := by
  unfold resumeAw
  repeat' split
  all_goals first
    | exact ⟨rfl, rfl, fun _ => rfl⟩
    | exact takeResult_keeps _ _ _ _

theorem wake_keeps (s : St) :
    s.wake.lazy = s.lazy ∧ s.wake.recv = s.recv ∧ (s.phase ≠ .parked → s.wake.phase = s.phase) := by
  unfold wake
  split
  · exact ⟨rfl, rfl, fun _ => rfl⟩
  · exact resumeAw_keeps _ _

theorem bodyResume_keeps (s : St) : s.bodyResume.lazy = s.lazy ∧ s.bodyResume.recv = s.recv := by
  unfold bodyResume
  split <;> exact ⟨rfl, rfl⟩

theorem put_keeps (s : St) (v : Nat) : (s.put v).lazy = s.lazy ∧ (s.put v).recv = s.recv ∧ (s.put v).phase = s.phase := by
  unfold put
  repeat' split
  all_goals exact ⟨rfl, rfl, rfl⟩

theorem suspend_keeps (s : St) : s.suspend.lazy = s.lazy ∧ s.suspend.recv = s.recv := by
  unfold suspend
  repeat' split
  · exact ⟨rfl, rfl⟩
  · exact bodyResume_keeps s
  · have := wake_keeps { s with phase := .parked }
    exact ⟨this.1, this.2.1⟩

theorem await_keeps (s : St) (a p : Nat) : (s.await a p).lazy = s.lazy ∧ (s.await a p).recv = s.recv ∧
    (s.phase ≠ .parked → (s.await a p).phase = s.phase) := by
  unfold await
  simp only
  split
  · exact resumeAw_keeps _ _
  · split
    · exact resumeAw_keeps _ _
    · split
      all_goals split
      all_goals first
        | (rename_i h; exact ⟨(bodyResume_keeps _).1, (bodyResume_keeps _).2, fun hp => absurd h hp⟩)
        | exact ⟨rfl, rfl, fun _ => rfl⟩

theorem step_keeps (s : St) {e : Ev} (h1 : e ≠ .initial) (h2 : e ≠ .drop) :
    (s.step e).lazy = s.lazy ∧ (s.step e).recv = s.recv := by
  unfold step
  split
  · exact ⟨rfl, rfl⟩
  cases e with
  | initial => exact absurd rfl h1
  | drop => exact absurd rfl h2
  | yield v =>
    have hp := put_keeps s v
    dsimp only
    repeat' split
    · exact ⟨hp.1, hp.2.1⟩
    · have := suspend_keeps (s.put v)
      exact ⟨this.1.trans hp.1, this.2.trans hp.2.1⟩
    · exact suspend_keeps s
  | ret v =>
    have hp := put_keeps s v
    dsimp only
    repeat' split
    · exact ⟨hp.1, hp.2.1⟩
    · have := wake_keeps { s.put v with phase := .gone, done := true }
      exact ⟨this.1.trans hp.1, this.2.1.trans hp.2.1⟩
    · exact ⟨rfl, rfl⟩
  | throw x =>
    dsimp only
    split
    · have := wake_keeps { s with exc := some (.user x), phase := .gone, done := true }
      exact ⟨this.1, this.2.1⟩
    · exact ⟨rfl, rfl⟩
  | kill => simp only [kill]; split <;> exact ⟨rfl, rfl⟩
  | run =>
    dsimp only
    split
    · exact bodyResume_keeps s
    · exact ⟨rfl, rfl⟩
  | await a p => exact ⟨(await_keeps s a p).1, (await_keeps s a p).2.1⟩
  | interrupt a =>
    simp only [interrupt]
    split
    · exact ⟨rfl, rfl⟩
    · exact ⟨(wake_keeps _).1, (wake_keeps _).2.1⟩
  | get a =>
    simp only [get]
    repeat' split
    all_goals exact ⟨rfl, rfl⟩

end St

namespace For

theorem advance_g (l : St) : l.advance.g = l.g := by
  unfold St.advance
  repeat' split
  all_goals rfl

theorem advance_quiet {l : St} (h : ∀ a, l.phase ≠ .waiting a) : l.advance = l := by
  unfold St.advance
  split
  · rename_i a hx; exact absurd hx (h a)
  · rfl

theorem advance_seen (l : St) : l.advance.seen = l.seen ∨ l.advance.phase = .head ∧ ∃ v, l.advance.seen = l.seen ++ [v] := by
  unfold St.advance
  repeat' split
  all_goals first
    | exact .inl rfl
    | exact .inr ⟨rfl, _, rfl⟩

theorem advance_broken {l : St} (h : l.phase ≠ .broken) : l.advance.phase ≠ .broken := by
  unfold St.advance
  repeat' split
  all_goals first
    | exact h
    | simp

/-- What a step of the coroutine does to the loop. -/
theorem other_keeps (l : St) (e : Gen.Ev) :
    ((∀ a, l.phase ≠ .waiting a) → (l.step (.other e)).phase = l.phase ∧ (l.step (.other e)).seen = l.seen) ∧
    ((l.step (.other e)).seen = l.seen ∨ (l.step (.other e)).phase = .head ∧ ∃ v, (l.step (.other e)).seen = l.seen ++ [v]) ∧
    (l.phase ≠ .broken → (l.step (.other e)).phase ≠ .broken) ∧
    (l.can (.other e) = true → (l.step (.other e)).g = l.g.step e) := by
  unfold St.step
  split
  · rename_i h
    refine ⟨fun _ => ⟨rfl, rfl⟩, .inl rfl, id, fun hc => ?_⟩
    simp [hc] at h
  · refine ⟨fun h => ?_, advance_seen _, advance_broken (l := { l with g := l.g.step e }), fun _ => advance_g _⟩
    dsimp only
    rw [advance_quiet (l := { l with g := l.g.step e }) h]
    exact ⟨rfl, rfl⟩

/-- What a turn does. -/
theorem turn_keeps (l : St) :
    ((l.step .turn).seen = l.seen ∨ (l.step .turn).phase = .head ∧ ∃ v, (l.step .turn).seen = l.seen ++ [v]) ∧
    (l.phase ≠ .broken → (l.step .turn).phase ≠ .broken) ∧
    (l.step .turn).g.lazy = l.g.lazy ∧ (l.step .turn).g.recv = l.g.recv ∧
    (l.g.phase ≠ .parked → (l.step .turn).g.phase = l.g.phase) := by
  unfold St.step
  split
  · exact ⟨.inl rfl, id, rfl, rfl, fun _ => rfl⟩
  · simp only [St.turn]
    split
    · refine ⟨advance_seen _, fun _ => advance_broken (by simp), ?_, ?_, ?_⟩
      · rw [advance_g]; exact (Gen.St.step_keeps _ (by simp) (by simp)).1
      · rw [advance_g]; exact (Gen.St.step_keeps _ (by simp) (by simp)).2
      · rw [advance_g]
        intro h
        show (l.g.step _).phase = _
        unfold Gen.St.step
        split
        · rfl
        · exact (Gen.St.await_keeps _ _ _).2.2 h
    · exact ⟨.inl rfl, by simp, rfl, rfl, fun _ => rfl⟩

/-- After a `co_yield` the body does not run. -/
theorem LI.yield_stops {i : Bool} {p : Sp} {l : St} (h : LI i p l) {v : Nat} (hc : l.g.can (.yield v) = true)
    (hr : l.g.recv = true) : (l.g.step (.yield v)).phase ≠ .running := by
  obtain ⟨u, hi⟩ := h.inv
  have hph : l.g.phase = .running := by simpa [Gen.St.can] using hc
  obtain ⟨hub, hres, hbuf, hdone, hexc, hpu, hend, hdrop⟩ := h.running hr hph
  unfold Gen.St.step
  rw [if_neg (by simp [hub, hc])]
  cases ha : l.g.awaited with
  | none => simp [hr, Gen.St.put, hres, hub, Gen.St.suspend, hpu, Gen.St.wake, ha]
  | some a =>
    obtain ⟨hk, w, hw, hwe, hwg, -, hwl⟩ := hi.awaited a ha
    cases hl : l.g.lazy <;> cases ht : w.toPush <;>
      simp [hr, Gen.St.put, hres, hub, Gen.St.suspend, hpu, Gen.St.wake, ha, Gen.St.resumeAw, hw, hwe, hexc, ht,
        Gen.St.takeResult, Gen.St.give, hl]

/-- A generator that is gone is one whose body has ended. -/
theorem LI.gone {i : Bool} {p : Sp} {l : St} (h : LI i p l) (hr : l.g.recv = true) :
    p.ended = true ↔ l.g.phase = .gone := by
  obtain ⟨u, hi⟩ := h.inv
  rw [← hi.gone hr, hi.ended hr]

theorem LI.notDropped {i : Bool} {p : Sp} {l : St} (h : LI i p l) (hr : l.g.recv = true) : p.dropped = false := by
  obtain ⟨u, hi⟩ := h.inv
  have := hi.dropped
  simpa [hr] using this

theorem LI.prefixOf {i : Bool} {p : Sp} {l : St} (h : LI i p l) : l.seen.map Got.val <+: p.outs := by
  obtain ⟨u, hi⟩ := h.inv
  have := hi.pre
  rw [h.log, List.filter_append, filter_vals] at this
  exact (List.prefix_append _ _).trans this

end For

namespace St

theorem resumeAw_received (s : St) (a : Nat) : (s.resumeAw a).received = s.received ∧ (s.resumeAw a).done = s.done := by
  unfold resumeAw
  repeat' split
  all_goals exact ⟨rfl, rfl⟩

theorem wake_received (s : St) : s.wake.received = s.received ∧ s.wake.done = s.done := by
  unfold wake
  split
  · exact ⟨rfl, rfl⟩
  · exact resumeAw_received _ _

theorem bodyResume_received (s : St) : s.received.length ≤ s.bodyResume.received.length ∧ s.bodyResume.done = s.done := by
  unfold bodyResume
  split
  · exact ⟨Nat.le_refl _, rfl⟩
  · exact ⟨Nat.le_succ _, rfl⟩

theorem put_received (s : St) (v : Nat) : (s.put v).received = s.received ∧ (s.put v).done = s.done := by
  unfold put
  repeat' split
  all_goals exact ⟨rfl, rfl⟩

theorem suspend_received (s : St) : s.received.length ≤ s.suspend.received.length ∧ s.suspend.done = s.done := by
  unfold suspend
  repeat' split
  · exact ⟨Nat.le_refl _, rfl⟩
  · exact bodyResume_received s
  · have := wake_received { s with phase := .parked }
    exact ⟨by rw [this.1]; exact Nat.le_refl _, this.2⟩

theorem await_received (s : St) (a p : Nat) : s.received.length ≤ (s.await a p).received.length ∧ (s.await a p).done = s.done ∧
    (s.phase ≠ .parked → (s.await a p).received = s.received) := by
  have key : ∀ t : St, ∀ b, t.received = s.received → t.done = s.done →
      s.received.length ≤ (t.resumeAw b).received.length ∧ (t.resumeAw b).done = s.done ∧
      (s.phase ≠ .parked → (t.resumeAw b).received = s.received) := fun t b h1 h2 => by
    have := resumeAw_received t b
    rw [this.1, this.2, h1, h2]
    exact ⟨Nat.le_refl _, rfl, fun _ => rfl⟩
  have key2 : ∀ t : St, t.received = s.received → t.done = s.done → s.phase = .parked →
      s.received.length ≤ t.bodyResume.received.length ∧ t.bodyResume.done = s.done ∧
      (s.phase ≠ .parked → t.bodyResume.received = s.received) := fun t h1 h2 h3 => by
    have := bodyResume_received t
    rw [h1, h2] at this
    exact ⟨this.1, this.2, fun h => absurd h3 h⟩
  unfold await
  simp only
  split
  · exact key _ _ rfl rfl
  · split
    · exact key _ _ rfl rfl
    · split
      all_goals split
      all_goals first
        | (rename_i h; exact key2 _ rfl rfl h)
        | exact ⟨Nat.le_refl _, rfl, fun _ => rfl⟩

end St

namespace For

/-- What only grows. -/
theorem other_grows (l : St) {e : Gen.Ev} (he : (∃ v, e = .yield v) ∨ (∃ v, e = .ret v) ∨ (∃ x, e = .throw x) ∨ e = .run) :
    (l.step (.other e)).next = l.next ∧ (l.g.done = true → (l.step (.other e)).g.done = true) ∧
    l.g.received.length ≤ (l.step (.other e)).g.received.length ∧
    ((∃ v, e = .ret v) ∨ (∃ x, e = .throw x) → (l.step (.other e)).g.received = l.g.received) := by
  unfold St.step
  split
  · exact ⟨rfl, id, Nat.le_refl _, fun _ => rfl⟩
  · have hn : ({ l with g := l.g.step e } : St).advance.next = l.next := by
      unfold St.advance
      repeat' split
      all_goals rfl
    dsimp only
    rw [advance_g, hn]
    show l.next = l.next ∧ (l.g.done = true → (l.g.step e).done = true) ∧ l.g.received.length ≤ (l.g.step e).received.length ∧
      ((∃ v, e = .ret v) ∨ (∃ x, e = .throw x) → (l.g.step e).received = l.g.received)
    unfold Gen.St.step
    split
    · exact ⟨rfl, id, Nat.le_refl _, fun _ => rfl⟩
    rcases he with ⟨v, rfl⟩ | ⟨v, rfl⟩ | ⟨x, rfl⟩ | rfl
    · have hp := Gen.St.put_received l.g v
      refine ⟨rfl, ?_, ?_, by simp⟩
      · dsimp only
        intro hd
        repeat' split
        · exact hp.2.trans hd
        · exact ((Gen.St.suspend_received _).2.trans hp.2).trans hd
        · exact (Gen.St.suspend_received _).2.trans hd
      · dsimp only
        repeat' split
        · rw [hp.1]; exact Nat.le_refl _
        · have := (Gen.St.suspend_received (l.g.put v)).1
          rw [hp.1] at this
          exact this
        · exact (Gen.St.suspend_received l.g).1
    · have hp := Gen.St.put_received l.g v
      have hw := Gen.St.wake_received { l.g.put v with phase := .gone, done := true }
      have hr : (if l.g.recv = true then (if (l.g.put v).ub = true then l.g.put v else (l.g.put v).finish)
          else { l.g with phase := .gone } : Gen.St).received = l.g.received := by
        repeat' split
        · exact hp.1
        · exact hw.1.trans hp.1
        · rfl
      refine ⟨rfl, ?_, by dsimp only; rw [hr]; exact Nat.le_refl _, fun _ => hr⟩
      dsimp only
      intro hd
      repeat' split
      · exact hp.2.trans hd
      · exact hw.2
      · exact hd
    · have hw := Gen.St.wake_received { l.g with exc := some (.user x), phase := .gone, done := true }
      have hr : (if l.g.recv = true then ({ l.g with exc := some (.user x) } : Gen.St).finish
          else { l.g with phase := .stuck } : Gen.St).received = l.g.received := by
        split
        · exact hw.1
        · rfl
      refine ⟨rfl, ?_, by dsimp only; rw [hr]; exact Nat.le_refl _, fun _ => hr⟩
      dsimp only
      intro hd
      split
      · exact hw.2
      · exact hd
    · refine ⟨rfl, ?_, ?_, by simp⟩
      · dsimp only
        intro hd
        split
        · exact (Gen.St.bodyResume_received _).2.trans hd
        · exact hd
      · dsimp only
        split
        · exact (Gen.St.bodyResume_received _).1
        · exact Nat.le_refl _

/-- A turn begins an await or ends the loop. -/
theorem turn_grows (l : St) (hc : l.can .turn = true) :
    ((l.step .turn).next = l.next + 1 ∨ (l.step .turn).next = l.next ∧ (l.step .turn).phase = .finished) ∧
    (l.g.done = true → (l.step .turn).g.done = true) ∧
    l.g.received.length ≤ (l.step .turn).g.received.length ∧
    (l.g.phase ≠ .parked → (l.step .turn).g.received = l.g.received) := by
  unfold St.step
  rw [if_neg (by simp [hc])]
  simp only [St.turn]
  split
  · have hn : ({ l with g := l.g.step (.await l.next l.next), phase := .waiting l.next, next := l.next + 1 } : St).advance.next =
        l.next + 1 := by
      unfold St.advance
      repeat' split
      all_goals rfl
    rw [hn, advance_g]
    refine ⟨.inl rfl, ?_⟩
    show (l.g.done = true → (l.g.step (.await l.next l.next)).done = true) ∧
      l.g.received.length ≤ (l.g.step (.await l.next l.next)).received.length ∧
      (l.g.phase ≠ .parked → (l.g.step (.await l.next l.next)).received = l.g.received)
    unfold Gen.St.step
    split
    · exact ⟨id, Nat.le_refl _, fun _ => rfl⟩
    · have := Gen.St.await_received l.g l.next l.next
      exact ⟨fun hd => this.2.1.trans hd, this.1, this.2.2⟩
  · exact ⟨.inr ⟨rfl, rfl⟩, id, Nat.le_refl _, fun _ => rfl⟩

end For

namespace For

/-- The awaits of a loop that have not given it a value. -/
def Phase.cost : Phase → Nat
  | .head | .finished | .broken => 0
  | _ => 1

theorem advance_next {l : St} (h : l.next ≤ l.seen.length + l.phase.cost) :
    l.advance.next ≤ l.advance.seen.length + l.advance.phase.cost := by
  unfold St.advance
  split
  · rename_i a hp
    rw [hp] at h
    simp only [Phase.cost] at h
    repeat' split
    · simpa [Phase.cost] using h
    · simpa [Phase.cost] using h
    · simpa [Phase.cost] using h
    · rw [hp]; simpa [Phase.cost] using h
  · exact h

theorem step_next {l : St} {e : Ev} (h : l.next ≤ l.seen.length + l.phase.cost) :
    (l.step e).next ≤ (l.step e).seen.length + (l.step e).phase.cost := by
  unfold St.step
  split
  · exact h
  · rename_i hc
    cases e with
    | turn =>
      have hp : l.phase = .head := by simpa [St.can] using hc
      rw [hp] at h
      simp only [Phase.cost] at h
      dsimp only [St.turn]
      split
      · apply advance_next
        simp only [Phase.cost]
        omega
      · simpa [Phase.cost] using h
    | leave =>
      have hp : l.phase = .head := by simpa [St.can] using hc
      rw [hp] at h
      simpa [Phase.cost] using h
    | other e => exact advance_next (l := { l with g := l.g.step e }) h

end For

end Cobalt.Gen
