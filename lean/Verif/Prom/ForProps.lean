import Verif.Prom.ForLemmas
import Verif.Prom.TidyDec
/-! Property C85: `BOOST_COBALT_FOR` over a promise. -/
namespace Cobalt.Prom.For

/-- What a loop over a promise should have done, from how what the promise stands for has
ended (`o`): the body of the loop ran at most once and with the value. The loop ended normally
if it did, and by the exception if there is one; nothing else but an interruption throws. -/
def Right (es : List Ev) (o : Option End) (l : St) : Prop :=
  (l.seen ≠ [] → ∃ v, l.seen = [some v] ∧ o = some (.out (.val v))) ∧
  match l.phase with
  | .head | .broken => True
  | .waiting _ => o = none ∧ l.seen = []
  | .finished => ∃ v, l.seen = [some v] ∧ o = some (.out (.val v))
  | .thrown e => l.seen = [] ∧ (e = .detached ∧ Interrupted es ∨ (∃ x, o = some (.out (.exc x)) ∧ e = .user x) ∨
      o = some .killed ∧ e = .unexpected)
  | .destroyed => l.seen = [] ∧ o = some .killed

/-- **C85** in full: after any possible history `es₀` of promises, a loop over a promise at `r`
that nobody awaits, that was not moved from and that is true, with anything else possible
happening meanwhile (`es`). -/
def C85 : Prop := ∀ (es₀ : List Prom.Ev) (r : Nat) (R : Rec) (es : List Ev), Prom.Legal {} es₀ →
  (Prom.St.run es₀).recv r = some R → R.awaited = none → R.toBool = true → proper ((spec es₀).holds r) = true →
  Legal r { s := Prom.St.run es₀ } es →
  (St.steps { s := Prom.St.run es₀ } r es).s.ub = false ∧
  Right es (outcome ((spec es₀).steps (others es)) ((spec es₀).holds r)) (St.steps { s := Prom.St.run es₀ } r es)

/-- **C85** for the uses listed at `Prom.Tidy`, of any number of promises. -/
theorem C85_partial (es₀ : List Prom.Ev) (r : Nat) (R : Rec) (es : List Ev) (h₀ : Prom.TidyRun {} {} es₀)
    (hR : (Prom.St.run es₀).recv r = some R) (hf : R.awaited = none) (hb : R.toBool = true)
    (hp : proper ((spec es₀).holds r) = true) (ht : TidyRun r (spec es₀) { s := Prom.St.run es₀ } es) :
    (St.steps { s := Prom.St.run es₀ } r es).s.ub = false ∧
    Right es (outcome ((spec es₀).steps (others es)) ((spec es₀).holds r)) (St.steps { s := Prom.St.run es₀ } r es) := by
  have h := LI.steps es (LI.init (Inv.run h₀) hR hf hb hp) hp ht
  rw [List.nil_append] at h
  obtain ⟨t, hi⟩ := h.inv
  obtain ⟨R, hR, r1, r2, r3, r4⟩ := h.recv
  have hv : (St.steps { s := Prom.St.run es₀ } r es).seen ≠ [] →
      ∃ v, (St.steps { s := Prom.St.run es₀ } r es).seen = [some v] ∧
        outcome ((spec es₀).steps (others es)) ((spec es₀).holds r) = some (.out (.val v)) := fun hs => by
    obtain ⟨v, h1, h2, -⟩ := r4 hs
    exact ⟨v, h1, h2⟩
  refine ⟨hi.ub, hv, ?_⟩
  split <;> rename_i hx
  · trivial
  · trivial
  · rename_i a
    obtain ⟨ha, hs, -⟩ := r1 a hx
    refine ⟨?_, hs⟩
    have hfit := hi.fit r R hR
    have hh : ({ (spec es₀).steps (others es) with target := t } : Sp).holds r = (spec es₀).holds r := h.holds
    rw [hh] at hfit
    cases hH : (spec es₀).holds r with
    | coro c =>
      rw [hH] at hfit
      obtain ⟨-, hfit⟩ := hfit
      simp only [outcome]
      cases hn : ((spec es₀).steps (others es)).ended c with
      | none => rfl
      | some e =>
        have hn' : ({ (spec es₀).steps (others es) with target := t } : Sp).ended c = some e := hn
        rw [hn'] at hfit
        rcases e with (v | x) | _ <;> (simp only at hfit; rw [hfit.2.1] at ha; simp at ha)
    | ready v => rw [hH] at hfit; have := hfit.2.1; rw [ha] at this; simp at this
    | _ => rw [hH] at hp; simp [proper] at hp
  · exact hv (h.finished hx)
  · exact h.thrown _ hx
  · exact h.destroyed hx

/-- A second loop over the same promise ends at once: after a loop that ended normally the
promise is false. -/
theorem C85_again_partial (es₀ : List Prom.Ev) (r : Nat) (R : Rec) (es : List Ev) (h₀ : Prom.TidyRun {} {} es₀)
    (hR : (Prom.St.run es₀).recv r = some R) (hf : R.awaited = none) (hb : R.toBool = true)
    (hp : proper ((spec es₀).holds r) = true) (ht : TidyRun r (spec es₀) { s := Prom.St.run es₀ } es)
    (hx : (St.steps { s := Prom.St.run es₀ } r es).phase = .finished) :
    (St.steps { s := Prom.St.run es₀ } r es).test r = false := by
  have h := LI.steps es (LI.init (Inv.run h₀) hR hf hb hp) hp ht
  obtain ⟨t, hi⟩ := h.inv
  obtain ⟨R, hR, r1, r2, r3, r4⟩ := h.recv
  obtain ⟨v, -, ho, htk⟩ := r4 (h.finished hx)
  have hfit := hi.fit r R hR
  have hh : ({ (spec es₀).steps (others es) with target := t } : Sp).holds r = (spec es₀).holds r := h.holds
  rw [hh] at hfit
  have hd : R.done = true := by
    cases hH : (spec es₀).holds r with
    | coro c =>
      rw [hH] at hfit ho
      obtain ⟨-, hfit⟩ := hfit
      have hn' : ({ (spec es₀).steps (others es) with target := t } : Sp).ended c = some (.out (.val v)) := ho
      rw [hn'] at hfit
      exact hfit.1
    | ready u => rw [hH] at hfit; exact hfit.1
    | _ => rw [hH] at hp; simp [proper] at hp
  simp [St.test, hR, Rec.toBool, hd, htk]

/-- Two promises, one moved before the loop over it and cancelled in it; the loop waits. -/
def before : List Prom.Ev := [.create 0 0, .create 1 1, .moveC 0 2]

def around : List Ev :=
  [.other (.await 7 1), .turn 5, .other (.cancel 2), .other (.finish 1 (.exc 3)), .other (.finish 0 (.val 4)), .turn 6]

example : Prom.TidyRun {} {} before := tidyRun_of (by decide)

example : proper ((spec before).holds 2) = true ∧ ((Prom.St.run before).recv 2).map (·.toBool) = some true ∧
    ((Prom.St.run before).recv 2).map (·.awaited) = some none := by decide

example : TidyRun 2 (spec before) { s := Prom.St.run before } around := by
  refine ⟨by decide, ?_, by decide, by simp, by decide, ?_, by decide, ?_, by decide, ?_, by decide, by simp, trivial⟩ <;>
    · intro e he
      simp only [Ev.other.injEq] at he
      subst he
      first
      | trivial
      | (refine ⟨by decide, fun c hc => ?_⟩; revert hc; simp [spec, Sp.steps, before, Sp.step, Sp.left])
      | (intro c hc; revert hc; simp [others, Sp.steps, Sp.step, spec, before, Sp.left])

example : (St.steps { s := Prom.St.run before } 2 around).seen = [some 4] ∧
    (St.steps { s := Prom.St.run before } 2 around).phase = .finished ∧
    (St.steps { s := Prom.St.run before } 2 (around.take 3)).phase = .waiting 5 := by decide

/-- A loop over a promise whose coroutine throws, one that is interrupted, one that is destroyed. -/
example : (St.steps { s := Prom.St.run [.create 0 0] } 0 [.turn 5, .other (.finish 0 (.exc 3))]).phase = .thrown (.user 3) ∧
    (St.steps { s := Prom.St.run [.create 0 0] } 0 [.turn 5, .other (.interrupt 5)]).phase = .thrown .detached ∧
    (St.steps { s := Prom.St.run [.create 0 0] } 0 [.turn 5, .other (.kill 0)]).phase = .destroyed := by decide

/-- **C85** does not hold in full: an await of the promise was interrupted before the loop.
Interrupting it again while the loop waits resumes the loop without a value. -/
theorem C85_violated : ¬C85 := by
  intro h
  have := (h [.create 0 0, .await 0 0, .interrupt 0] 0 { ref := some 0, attached := true }
    [.turn 1, .other (.interrupt 0)] (by decide) rfl rfl rfl (by decide) (by decide)).1
  revert this
  decide

/-- A promise that was moved from is true as well, and a loop over it throws. -/
theorem C85_moved_violated : ∃ es₀, Prom.TidyRun {} {} es₀ ∧ (spec es₀).holds 0 = .moved ∧
    (St.steps { s := Prom.St.run es₀ } 0 []).test 0 = true ∧
    (St.steps { s := Prom.St.run es₀ } 0 [.turn 1]).phase = .thrown .movedFrom ∧ es₀ = [.create 0 0, .moveC 0 1] :=
  ⟨_, tidyRun_of (by decide), by decide, by decide, by decide, rfl⟩

end Cobalt.Prom.For
