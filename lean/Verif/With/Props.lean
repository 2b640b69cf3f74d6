import Verif.With.Lemmas

/-!
# C24: `with`
-/
namespace Cobalt.With

/-- C24 does not hold: a teardown that clears the exception of a `func` with a result makes
`await_resume` dereference an empty optional. -/
theorem C24_violated : ¬ C24Holds := by
  intro h
  exact absurd (h ⟨true, .throw 1, false, ⟨.ret 0, fun _ => none⟩, false⟩).2.1 (by decide)

/-- What holds of C24: the teardown does not change the exception it is given. -/
theorem C24_partial (u : Use) (hc : ∀ e, u.tear.change e = e) : Good u := by
  obtain ⟨valued, func, funcNow, ⟨out, change⟩, tearNow⟩ := u
  simp only at hc
  cases valued <;> cases func <;> cases funcNow <;> cases out <;> cases tearNow <;>
    simp [Good, Use.cfg, Use.events, Use.expected, Out.exc, St.run, St.step, St.start, St.funcEnds, St.tearEnds,
      St.resume, hc]

/-- In any case, whatever happens in whatever order: the teardown is called at most once,
after `func` and with its exception, and there is at most one result, after the teardown. -/
theorem C24_order (c : Cfg) (es : List Ev) :
    ∃ e r, (St.run c es).calls <+: [.func, .teardown e, .resume r] ∧
      (.teardown e ∈ (St.run c es).calls → Known c es e) := by
  have i := Inv.run c es
  cases hp : (St.run c es).phase with
  | created => exact ⟨none, .void, by simp [i.created hp]⟩
  | inFunc => exact ⟨none, .void, by simp [i.inFunc hp]⟩
  | inTear =>
    obtain ⟨e, a, b⟩ := i.inTear hp
    exact ⟨e, .void, by simp [b], fun _ => a⟩
  | done =>
    obtain ⟨e, a, b | ⟨r, b⟩⟩ := i.done hp
    · exact ⟨e, .void, by simp [b], fun _ => a⟩
    · exact ⟨e, r, by simp [b], fun _ => a⟩

/-- With a teardown that changes the exception: this is what is thrown; only if it is
cleared does the exception of the teardown count. -/
theorem C24_changed (u : Use) (x : Nat) (h : u.tear.change u.func.exc = some x) :
    (St.run u.cfg u.events).calls = [.func, .teardown u.func.exc, .resume (.throw x)] := by
  obtain ⟨valued, func, funcNow, ⟨out, change⟩, tearNow⟩ := u
  cases valued <;> cases func <;> cases funcNow <;> cases out <;> cases tearNow <;>
    simp_all [Use.cfg, Use.events, Out.exc, St.run, St.step, St.start, St.funcEnds, St.tearEnds, St.resume]

/-- With any teardown: the behaviour is undefined exactly if a `func` with a result throws and the teardown
clears the exception without throwing one. -/
theorem C24_exact (u : Use) : (St.run u.cfg u.events).ub = true ↔
    u.valued = true ∧ (∃ x, u.func = .throw x) ∧ u.tear.change u.func.exc = none ∧
      ∃ w, u.tear.out = .ret w := by
  obtain ⟨valued, func, funcNow, ⟨out, change⟩, tearNow⟩ := u
  cases func with
  | ret v =>
    cases hc : change none <;> cases valued <;> cases funcNow <;> cases out <;> cases tearNow <;>
      simp [Use.cfg, Use.events, Out.exc, St.run, St.step, St.start, St.funcEnds, St.tearEnds,
        St.resume, hc]
  | throw x =>
    cases hc : change (some x) <;> cases valued <;> cases funcNow <;> cases out <;> cases tearNow <;>
      simp [Use.cfg, Use.events, Out.exc, St.run, St.step, St.start, St.funcEnds, St.tearEnds,
        St.resume, hc]

/-- In all other cases the result is the one documented, and the frame is destroyed. -/
theorem C24_modified (u : Use) (h : (St.run u.cfg u.events).ub = false) :
    (∃ r, Modified u r ∧
      (St.run u.cfg u.events).calls = [.func, .teardown u.func.exc, .resume r]) ∧
    (St.run u.cfg u.events).frame = false := by
  obtain ⟨valued, func, funcNow, ⟨out, change⟩, tearNow⟩ := u
  cases func with
  | ret v =>
    cases hc : change none <;> cases valued <;> cases out <;>
      (first
        | refine ⟨⟨_, .left _ hc, ?_⟩, ?_⟩
        | refine ⟨⟨_, .teardown _ hc rfl, ?_⟩, ?_⟩
        | refine ⟨⟨_, .value _ _ hc rfl rfl rfl, ?_⟩, ?_⟩
        | refine ⟨⟨_, .void _ hc rfl rfl, ?_⟩, ?_⟩) <;>
      cases funcNow <;> cases tearNow <;>
      simp [Use.cfg, Use.events, Out.exc, St.run, St.step, St.start, St.funcEnds, St.tearEnds,
        St.resume, hc]
  | throw x =>
    cases hc : change (some x) <;> cases valued <;> cases out <;>
      (first
        | refine ⟨⟨_, .left _ hc, ?_⟩, ?_⟩
        | refine ⟨⟨_, .teardown _ hc rfl, ?_⟩, ?_⟩
        | refine ⟨⟨_, .void _ hc rfl rfl, ?_⟩, ?_⟩
        | (exfalso
           rw [(C24_exact _).mpr ⟨rfl, ⟨x, rfl⟩, hc, _, rfl⟩] at h; cases h)) <;>
      cases funcNow <;> cases tearNow <;>
      simp [Use.cfg, Use.events, Out.exc, St.run, St.step, St.start, St.funcEnds, St.tearEnds,
        St.resume, hc]

example : Modified ⟨false, .throw 1, false, ⟨.ret 0, fun _ => none⟩, false⟩ .void :=
  .void 0 rfl rfl rfl

example : Good ⟨true, .throw 1, false, ⟨.throw 2, id⟩, false⟩ ∧
    (St.run (Use.cfg ⟨true, .throw 1, false, ⟨.throw 2, id⟩, false⟩)
      (Use.events ⟨true, .throw 1, false, ⟨.throw 2, id⟩, false⟩)).calls =
      [.func, .teardown (some 1), .resume (.throw 1)] :=
  ⟨C24_partial _ (fun _ => rfl), by decide⟩

end Cobalt.With
