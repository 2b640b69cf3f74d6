import Verif.Task.SpawnLemmas
import Verif.Task.ExactSpec
/-!
# C29: exactly which uses of a task are undefined

include/boost/cobalt/detail/task.hpp, include/boost/cobalt/detail/spawn.hpp.
-/
namespace Cobalt.Task

open Prom (Err Out Got End fits upd upd_apply)

/-- **C29**, exactly: after any history of uses listed at `Tidy`, a use is undefined at once if and only if it is one of
those listed at `Undefined`. (Moving, destroying or spawning a task that is awaited, and interrupting an await that has
ended, are not undefined at once; see `C29_lost_violated`, `C29_moved_violated`, `C48_started_violated` for what comes
of it.) -/
theorem C29_undefined_exact (es : List Ev) (ht : TidyRun {} {} es) (e : Ev) (hc : (St.run es).can e = true) :
    (St.run (es ++ [e])).ub = true ↔ Undefined (spec es) (St.run es) e := by
  have h := Inv.run ht
  have tidy : Tidy (spec es) (St.run es) e → ((St.run es).step e).ub = false := fun t => (h.step hc t).ub
  rw [run_append]
  have e0 : (St.run es).ub = false := h.ub
  cases e with
  | create c r => simpa [Undefined] using tidy trivial
  | noop r v => simpa [Undefined] using tidy trivial
  | finish c o => simpa [Undefined] using tidy trivial
  | kill c => simpa [Undefined] using tidy trivial
  | begin c => simpa [Undefined] using tidy trivial
  | deliver a => simpa [Undefined] using tidy trivial
  | cancel a => simpa [Undefined] using tidy trivial
  | await a r =>
    cases hR : (St.run es).recv r with
    | none => simp [St.can, St.user, hR] at hc
    | some R =>
      cases hx : (spec es).holds r with
      | none => exact absurd hx (h.here r R hR)
      | husk =>
        obtain ⟨h1, h2, h3⟩ := h.husk r R hR hx
        unfold St.step
        rw [if_neg (by simp [h.ub, hc])]
        cases hr : R.result with
        | none => simp [St.await, hR, h1, St.resumeAw, St.getResult, h3, hr, Undefined, hx]
        | some o => cases o <;> simp [St.await, hR, h1, St.resumeAw, St.getResult, h3, hr, Undefined, hx, e0]
      | coro c =>
        by_cases hb : (spec es).begun c = true ∧ (spec es).ended c = none
        · have hg := h.going r R c hR hx hb.2
          have hp := h.prom r R c hR hx
          unfold St.step
          rw [if_neg (by simp [h.ub, hc])]
          simp [St.await, hR, hg.1, hp, St.start, hg.2.2.2, hb.1, Undefined, hx, hb.2]
        · have : ¬ Undefined (spec es) (St.run es) (.await a r) := by
            rintro (⟨c', h1, h2⟩ | ⟨h1, -⟩)
            · rw [hx] at h1; cases h1; exact hb h2
            · rw [hx] at h1; cases h1
          simp only [this, iff_false, Bool.not_eq_true]
          refine tidy ⟨by simp [hx], fun c' h1 h2 h3 => ?_⟩
          rw [hx] at h1; cases h1; exact hb ⟨h2, h3⟩
      | ready v => simpa [Undefined, hx] using tidy (by simp [Tidy, hx])
      | moved => simpa [Undefined, hx] using tidy (by simp [Tidy, hx])
  | spawn a r r' =>
    cases hR : (St.run es).recv r with
    | none => simp [St.can, St.user, hR] at hc
    | some R =>
      cases hx : (spec es).holds r with
      | none => exact absurd hx (h.here r R hR)
      | husk =>
        obtain ⟨h1, h2, h3⟩ := h.husk r R hR hx
        unfold St.step
        rw [if_neg (by simp [h.ub, hc])]
        cases hr : R.result with
        | none => simp [St.spawn, hR, h1, St.doneGot, St.getResult, h3, hr, Undefined, hx]
        | some o => cases o <;> simp [St.spawn, hR, h1, St.doneGot, St.getResult, h3, hr, Undefined, hx, e0]
      | coro c =>
        by_cases hb : (spec es).begun c = true ∧ (spec es).ended c = none
        · have hg := h.going r R c hR hx hb.2
          have hp := h.prom r R c hR hx
          have hn : r' ≠ r := by
            rintro rfl
            simp [St.can, hR] at hc
          unfold St.step
          rw [if_neg (by simp [h.ub, hc])]
          simp [St.spawn, hR, hg.1, hg.2.1, hp, St.moveConstruct, hg.2.2.2, Undefined, hx, e0]
        · have : ¬ Undefined (spec es) (St.run es) (.spawn a r r') := by
            rintro ⟨h1, -⟩
            rw [hx] at h1; cases h1
          simp only [this, iff_false, Bool.not_eq_true]
          refine tidy ⟨by simp [hx], fun c' h1 h2 h3 => ?_⟩
          rw [hx] at h1; cases h1; exact hb ⟨h2, h3⟩
      | ready v => simpa [Undefined, hx] using tidy (by simp [Tidy, hx])
      | moved => simpa [Undefined, hx] using tidy (by simp [Tidy, hx])
  | interrupt a =>
    simp only [Undefined, iff_false, Bool.not_eq_true]
    cases hw : (St.run es).aw a with
    | none => simp [St.can, hw] at hc
    | some w =>
      cases hR : (St.run es).recv w.self with
      | none => simp [St.can, hw, St.user, hR] at hc
      | some R =>
        unfold St.step
        rw [if_neg (by simp [h.ub, hc])]
        cases hb : R.awaited with
        | none => simp [St.interrupt, hw, hR, hb, e0]
        | some b =>
          obtain ⟨hB, -⟩ := h.waits w.self R b hR hb
          obtain ⟨c, h1, h2⟩ := h.awaitedGoing hR hb
          have hd := (h.going _ R c hR h1 h2).1
          cases ho : R.owner <;> simp [St.interrupt, hw, hR, hb, St.resumeAw, hB, ho, St.getResult, e0, hd]
  | moveC r r' =>
    simp only [Undefined, iff_false, Bool.not_eq_true]
    cases hR : (St.run es).recv r with
    | none => simp [St.can, St.user, hR] at hc
    | some R =>
      unfold St.step
      rw [if_neg (by simp [h.ub, hc])]
      simp only [St.moveConstruct, hR]
      split
      · rename_i hd
        obtain ⟨c, hx, he⟩ := h.notDone hR hd.1
        have hg := h.going r R c hR hx he
        simp [h.prom r R c hR hx, hg.2.2.2, e0]
      · exact e0
  | drop r =>
    simp only [Undefined, iff_false, Bool.not_eq_true]
    cases hR : (St.run es).recv r with
    | none => simp [St.can, St.user, hR] at hc
    | some R =>
      unfold St.step
      rw [if_neg (by simp [h.ub, hc])]
      simp only [St.destroyRec, hR]
      cases hd : R.done with
      | true => exact e0
      | false =>
        obtain ⟨c, hx, he⟩ := h.notDone hR hd
        have hg := h.going r R c hR hx he
        simp [h.prom r R c hR hx, hg.2.2.2, e0]

/-- **C29**: exactly which awaits of a task whose coroutine has not ended start its body: those of a body that was not
started before. -/
theorem C29_await_exact (es : List Ev) (ht : TidyRun {} {} es) {a r c : Nat} (hh : (spec es).holds r = .coro c)
    (he : (spec es).ended c = none) (hc : (St.run es).can (.await a r) = true) :
    ((St.run (es ++ [.await a r])).starts c = (St.run es).starts c + 1 ↔ (spec es).begun c = false) ∧
    ((St.run (es ++ [.await a r])).ub = true ↔ (spec es).begun c = true) := by
  have h := Inv.run ht
  have e0 := h.ub
  cases hR : (St.run es).recv r with
  | none => simp [St.can, St.user, hR] at hc
  | some R =>
    have hg := h.going r R c hR hh he
    have hp := h.prom r R c hR hh
    rw [run_append]
    unfold St.step
    rw [if_neg (by simp [h.ub, hc])]
    cases hb : (spec es).begun c <;> simp [St.await, hR, hg.1, hp, St.start, hg.2.2.2, hb, e0]

/-- The hypotheses, with both answers. -/
example : TidyRun {} {} [.create 0 0, .await 0 0] ∧ (St.run [.create 0 0, .await 0 0]).can (.await 1 0) = true ∧
    (St.run [.create 0 0, .await 0 0, .await 1 0]).ub = true :=
  ⟨tidyRun_of (by decide), by decide, by decide⟩

example : TidyRun {} {} [.create 0 0, .await 0 0, .interrupt 0, .finish 0 (.exc 2), .moveC 0 1] ∧
    (St.run [.create 0 0, .await 0 0, .interrupt 0, .finish 0 (.exc 2), .moveC 0 1, .spawn 2 0 5]).ub = true ∧
    (St.run [.create 0 0, .await 0 0, .interrupt 0, .finish 0 (.exc 2), .moveC 0 1, .spawn 2 1 5]).ub = false :=
  ⟨tidyRun_of (by decide), by decide, by decide⟩

/-- **C48**, exactly: after a history of uses listed at `Tidy`, the handler of a spawn whose coroutine has ended was
destroyed without being called if and only if the coroutine was destroyed, rather than ended by itself, after it was
spawned (`ready` is set by a spawn of a task that is done). Otherwise it was called with the outcome or is in the queue,
and will be. -/
theorem C48_exact (es : List Ev) (ht : TidyRun {} {} es) {a c : Nat} {w : Aw} {e : End}
    (hw : (St.run es).aw a = some w) (hs : w.spawned = true) (hx : (spec es).target a = .coro c)
    (he : (spec es).ended c = some e) :
    (a ∈ (St.run es).killed ↔ e = .killed ∧ w.ready = none) ∧
    (¬ (e = .killed ∧ w.ready = none) →
      (∃ g, w.got = some g ∧ fits e g) ∨
      (St.run es).can (.deliver a) = true ∧
        ∃ g, fits e g ∧ (St.run (es ++ [.deliver a])).log = (a, g) :: (St.run es).log) := by
  have h := Inv.run ht
  have l := Sl.run ht
  have ex : ∀ g, Explains (spec es) a g → fits e g := by
    intro g hg
    rcases hg with h1 | h1
    · rw [l.asked a w hw hs] at h1; simp at h1
    · rw [hx] at h1
      obtain ⟨e', h2, h3⟩ := h1
      rw [he] at h2; cases h2
      exact h3
  have hk : a ∈ (St.run es).killed ↔ e = .killed ∧ w.ready = none := by
    constructor
    · intro hk
      obtain ⟨c', h1, h2⟩ := h.slain a w hk hw hs
      rw [hx] at h1; cases h1
      rw [he] at h2; cases h2
      refine ⟨rfl, ?_⟩
      refine Classical.byContradiction fun hr => ?_
      obtain ⟨w', h3, h4⟩ := h.killed a hk
      rw [hw] at h3; cases h3
      exact (h.posted a w hw h4 (l.post a w hw hr)).2 hk
    · rintro ⟨rfl, hr⟩
      exact l.slain a w c hw hs hr hx he
  refine ⟨hk, fun hn => ?_⟩
  have hk' : a ∉ (St.run es).killed := fun h' => hn (hk.1 h')
  cases hg : w.got with
  | some g => exact Or.inl ⟨g, rfl, ex g (h.got a w g hw hg)⟩
  | none =>
    right
    have hp : w.posted = true := by
      cases hp : w.posted with
      | true => rfl
      | false =>
        obtain ⟨-, R, h5, h6, -⟩ := h.pend a w hw hg hk' hp
        obtain ⟨c', h7, h8⟩ := h.awaitedGoing h5 h6
        have := h.tgt _ R a c' h5 h6 h7
        rw [hx] at this; cases this
        rw [he] at h8; cases h8
    have hc : (St.run es).can (.deliver a) = true := by simp [St.can, hw, hp, hg]
    refine ⟨hc, ?_⟩
    have e1 : St.run (es ++ [.deliver a]) = (St.run es).deliver a := by
      rw [run_append]; unfold St.step; rw [if_neg (by simp [h.ub, hc])]
    rw [e1]
    cases hr : w.ready with
    | some g => exact ⟨g, ex g (h.postR a w g hw hg hp hr), by simp [St.deliver, hw, hr]⟩
    | none =>
      obtain ⟨R, hR, ho, hd⟩ := h.postN a w hw hg hp hr
      obtain ⟨⟨c', hh, htg⟩, -, htk, -⟩ := h.owned _ R a hR ho
      rw [hx] at htg; cases htg
      obtain ⟨-, -, hG⟩ := h.over _ R c _ hR hh he
      refine ⟨St.handed R, ?_, by simp [St.deliver, hw, hr, hR]⟩
      rcases e with (v | x) | _
      · simp only [Gives, htk] at hG
        simp [St.handed, hG, fits]
      · simp only [Gives] at hG
        simp [St.handed, hG, fits]
      · exact absurd ⟨rfl, hr⟩ hn

/-- The hypotheses, with both answers. -/
example : let es := [.create 0 0, .spawn 0 0 1, .begin 0, .kill 0]
    TidyRun {} {} es ∧ ((St.run es).aw 0).map (·.spawned) = some true ∧ (spec es).target 0 = .coro 0 ∧
    (spec es).ended 0 = some .killed ∧ (St.run es).killed = [0] :=
  ⟨tidyRun_of (by decide), by decide, by decide, by decide, by decide⟩

example : let es := [.create 0 0, .await 0 0, .kill 0, .spawn 1 0 1]
    TidyRun {} {} es ∧ ((St.run es).aw 1).map (·.spawned) = some true ∧ (spec es).target 1 = .coro 0 ∧
    (spec es).ended 0 = some .killed ∧ (St.run (es ++ [.deliver 1])).log = [(1, .err .unexpected)] :=
  ⟨tidyRun_of (by decide), by decide, by decide, by decide, by decide⟩

end Cobalt.Task
