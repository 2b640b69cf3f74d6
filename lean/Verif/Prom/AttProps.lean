import Verif.Prom.Model
/-!
# C28: which promises are attached

`promise::operator+`, `detach`, `attach` and the moves (promise.hpp:26-60, 85-101) say whether the destructor cancels.
-/
namespace Cobalt.Prom

/-- Who is attached after `e`, if `a` says who was: what is made is attached, an awaitable `noop` is not, what is moved
from is not, and what is moved to is if the source was. -/
def attSpec (a : Nat → Bool) : Ev → Nat → Bool
  | .create _ q, r => if r = q then true else a r
  | .noop q _, r => if r = q then false else a r
  | .moveC q q', r => if r = q then false else if r = q' then a q else a r
  | .moveA q q', r => if r = q' then false else if r = q then a q' else a r
  | .detach q, r => if r = q then false else a r
  | .attach q, r => if r = q then true else a r
  | _, r => a r

/-- Every event of the list is possible when it comes. -/
def Possible : St → List Ev → Prop
  | _, [] => True
  | s, e :: es => s.can e = true ∧ Possible (s.step e) es

instance Possible.dec : (s : St) → (es : List Ev) → Decidable (Possible s es)
  | _, [] => isTrue trivial
  | s, e :: es =>
    have := Possible.dec (s.step e) es
    inferInstanceAs (Decidable (s.can e = true ∧ Possible (s.step e) es))

/-- The promises of `s` are attached as `a` says. -/
def Tells (a : Nat → Bool) (s : St) : Prop := ∀ r R, s.recv r = some R → R.attached = a r

theorem Tells.put {a : Nat → Bool} {s s' : St} (h : Tells a s) {q : Nat} {R R' : Rec} (hq : s.recv q = some R)
    (hr : R'.attached = R.attached) (hs : s'.recv = upd s.recv q (some R')) : Tells a s' := by
  intro r S hS
  rw [hs, upd_apply] at hS
  split at hS
  · cases hS; subst_vars; rw [hr]; exact h _ _ hq
  · exact h r S hS

theorem getResult_attached {R R' : Rec} {g : Got} (h : St.getResult R = some (R', g)) : R'.attached = R.attached := by
  unfold St.getResult at h
  repeat' split at h
  all_goals first
    | contradiction
    | (simp only [Option.some.injEq, Prod.mk.injEq] at h; rw [← h.1]; split <;> rfl)
    | (simp only [Option.some.injEq, Prod.mk.injEq] at h; rw [← h.1])

theorem Tells.resumeAw {a : Nat → Bool} {s : St} (h : Tells a s) (x : Nat) : Tells a (s.resumeAw x) := by
  unfold St.resumeAw
  repeat' split
  all_goals first
    | exact h
    | (rename_i hR _ _ _ hg; exact h.put hR (getResult_attached hg) rfl)

theorem Tells.step {a : Nat → Bool} {s : St} (h : Tells a s) (e : Ev) (hc : s.can e = true)
    (hu : (s.step e).ub = false) : Tells (attSpec a e) (s.step e) := by
  have hub : s.ub = false := by
    rcases hs : s.ub with _ | _
    · rfl
    · simp [St.step, hs] at hu
  have hst : ∀ t : St, (if s.ub || !s.can e then s else t) = t := by intro t; simp [hub, hc]
  cases e with
  | create c q =>
    simp only [St.step, hst]
    intro r R hR
    simp only [upd_apply, attSpec] at *
    split at hR
    · cases hR; simp_all
    · rw [if_neg ‹_›]; exact h r R hR
  | noop q v =>
    simp only [St.step, hst]
    intro r R hR
    simp only [upd_apply, attSpec] at *
    split at hR
    · cases hR; simp_all
    · rw [if_neg ‹_›]; exact h r R hR
  | finish c o =>
    simp only [St.step, hst, St.finish] at hu ⊢
    repeat' split
    all_goals first
      | exact h
      | (apply Tells.resumeAw; refine h.put (hq := by assumption) (hs := rfl) ?_; rfl)
      | (refine h.put (hq := by assumption) (hs := rfl) ?_; rfl)
  | await x q =>
    simp only [St.step, hst, St.await] at hu ⊢
    repeat' split
    all_goals first
      | exact h
      | (apply Tells.resumeAw; exact h)
      | (refine h.put (hq := by assumption) (hs := rfl) ?_; rfl)
  | interrupt x =>
    simp only [St.step, hst, St.interrupt] at hu ⊢
    repeat' split
    all_goals first
      | exact h
      | (apply Tells.resumeAw; refine h.put (hq := by assumption) (hs := rfl) ?_; rfl)
      | (refine h.put (hq := by assumption) (hs := rfl) ?_; rfl)
  | moveC q q' =>
    simp only [St.step, hst, St.moveConstruct] at hu ⊢
    have hcc : (s.recv q).isSome ∧ (s.recv q').isNone := by simpa [St.can] using hc
    have hne : q ≠ q' := by rintro rfl; rcases hr : s.recv q <;> simp_all
    cases hq : s.recv q with
    | none => simp [hq] at hu
    | some R =>
      have ha := h q R hq
      rw [hq] at hu
      dsimp only at hu ⊢
      repeat' split
      all_goals first
        | (simp_all; done)
        | (intro r S hS
           simp only [upd_apply, attSpec] at *
           split at hS
           · cases hS; subst_vars; rw [if_neg (Ne.symm hne)]; simp [ha]
           · split at hS
             · cases hS; subst_vars; simp
             · rw [if_neg ‹_›, if_neg ‹_›]; exact h r S hS)
  | moveA q q' =>
    have hcc : q ≠ q' := by simp [St.can] at hc; exact hc.2
    simp only [St.step, hst] at hu ⊢
    have hl : ∀ t : St, (t.unlink q).recv = t.recv := by
      intro t; unfold St.unlink; repeat' split
      all_goals rfl
    have hl' := hl { s with leaving := upd s.leaving q false }
    simp only [St.moveAssign] at hu ⊢
    generalize St.unlink { s with leaving := upd s.leaving q false } q = t at *
    have hl' : t.recv = s.recv := hl'
    by_cases htu : t.ub = true
    · simp [htu] at hu
    · simp only [htu] at hu ⊢
      rw [hl'] at hu ⊢
      cases hq : s.recv q with
      | none => simp [hq] at hu
      | some O =>
        cases hq' : s.recv q' with
        | none => simp [hq, hq'] at hu
        | some R =>
          have ha := h q' R hq'
          rw [hq, hq'] at hu
          simp only [Bool.false_eq_true, if_false] at hu ⊢
          repeat' split
          all_goals first
            | (simp_all; done)
            | (intro r S hS
               simp only [upd_apply, attSpec] at *
               split at hS
               · cases hS; subst_vars; rw [if_neg hcc]; simp [ha]
               · split at hS
                 · cases hS; subst_vars; simp
                 · rw [if_neg ‹_›, if_neg ‹_›]; exact h r S hS)
  | detach q =>
    simp only [St.step, hst, St.setAttached] at hu ⊢
    split
    · simp_all
    · intro r S hS
      simp only [upd_apply, attSpec] at *
      split at hS
      · cases hS; simp_all
      · rw [if_neg ‹_›]; exact h r S hS
  | attach q =>
    simp only [St.step, hst, St.setAttached] at hu ⊢
    split
    · simp_all
    · intro r S hS
      simp only [upd_apply, attSpec] at *
      split at hS
      · cases hS; simp_all
      · rw [if_neg ‹_›]; exact h r S hS
  | cancel q =>
    simp only [St.step, hst, St.cancel]
    repeat' split
    all_goals exact h
  | leave q =>
    simp only [St.step, hst, St.leave, St.cancel]
    repeat' split
    all_goals exact h
  | drop q =>
    have key : ∀ t : St, t.recv = upd s.recv q none → Tells a t := by
      intro t ht r S hS
      rw [ht, upd_apply] at hS
      split at hS
      · cases hS
      · exact h r S hS
    simp only [St.step, hst, St.destroyRec]
    repeat' split
    all_goals first
      | exact h
      | exact key _ rfl
  | kill c =>
    simp only [St.step, hst, St.kill]
    repeat' split
    all_goals first
      | exact h
      | (refine h.put (hq := by assumption) (hs := rfl) ?_; rfl)
  | get q =>
    simp only [St.step, hst]
    repeat' split
    all_goals first
      | exact h
      | (refine h.put (hq := by assumption) (hs := rfl) ?_; exact getResult_attached ‹_›)

/-- **C28**: after any sequence of possible uses of promises without undefined behaviour, a promise is attached
just if the last of them that concerns its being attached says so. -/
theorem C28_attached (es : List Ev) (hl : Possible {} es) (hu : (St.run es).ub = false) {r : Nat} {R : Rec}
    (hR : (St.run es).recv r = some R) : R.attached = es.foldl attSpec (fun _ => false) r := by
  have key : ∀ (es : List Ev) (s : St) (a : Nat → Bool), Tells a s → Possible s es → (s.steps es).ub = false →
      Tells (es.foldl attSpec a) (s.steps es) := by
    intro es
    induction es with
    | nil => intro s a h _ _; exact h
    | cons e es ih =>
      intro s a h hl hu
      refine ih (s.step e) _ (h.step e hl.1 ?_) hl.2 hu
      rcases hs : (s.step e).ub with _ | _
      · rfl
      · have : ∀ (es : List Ev) (t : St), t.ub = true → (t.steps es).ub = true := by
          intro es
          induction es with
          | nil => intro t ht; exact ht
          | cons f fs ih' => intro t ht; exact ih' (t.step f) (by simp [St.step, ht])
        have h' := this es _ hs
        change ((s.step e).steps es).ub = false at hu
        rw [h'] at hu; simp at hu
  exact key es {} _ (by intro r R h; simp at h) hl hu r R hR

/-- Moves by construction and by assignment, detaching and attaching: 1 is attached, 0 is not. -/
example : let es := [.create 0 0, .create 1 1, .detach 0, .leave 1, .moveA 1 0, .attach 1, .moveC 1 2, .leave 1, .moveA 1 2]
    Possible {} es ∧ (St.run es).ub = false ∧ ((St.run es).recv 1).map (·.attached) = some true ∧
      ((St.run es).recv 0).map (·.attached) = some false := by decide

end Cobalt.Prom
