import Verif.With.Spec

/-!
# The order of calls
-/
namespace Cobalt.With

theorem resume_calls (c : Cfg) (s : St) :
    (s.resume c).phase = .done ∧ ((s.resume c).calls = s.calls ∨ ∃ r, (s.resume c).calls = s.calls ++ [.resume r]) := by
  unfold St.resume
  dsimp only
  repeat' split
  all_goals simp

theorem tearEnds_calls (c : Cfg) (s : St) (t : Tear) :
    (s.tearEnds c t).phase = .done ∧
      ((s.tearEnds c t).calls = s.calls ∨ ∃ r, (s.tearEnds c t).calls = s.calls ++ [.resume r]) := by
  unfold St.tearEnds
  split <;> exact resume_calls c _

/-- Where the calls are. -/
structure Inv (c : Cfg) (es : List Ev) (s : St) : Prop where
  created : s.phase = .created → s.calls = [] ∧ s.e = none
  inFunc : s.phase = .inFunc → s.calls = [.func] ∧ s.e = none
  inTear : s.phase = .inTear → ∃ e, Known c es e ∧ s.calls = [.func, .teardown e]
  done : s.phase = .done → ∃ e, Known c es e ∧
    (s.calls = [.func, .teardown e] ∨ ∃ r, s.calls = [.func, .teardown e, .resume r])

theorem Inv.tear {c : Cfg} {es : List Ev} {s : St} {e : Option Nat} (hk : Known c es e)
    (hs : s.calls = [.func, .teardown e]) (t : Tear) : Inv c es (s.tearEnds c t) := by
  obtain ⟨hp, hcalls⟩ := tearEnds_calls c s t
  refine ⟨by simp [hp], by simp [hp], by simp [hp], fun _ => ⟨e, hk, ?_⟩⟩
  rw [hs] at hcalls
  simpa using hcalls

theorem Inv.func {c : Cfg} {es : List Ev} {s : St} {o : Out} (hk : c.func = some o ∨ Ev.funcEnds o ∈ es)
    (hs : s.calls = [.func]) (he : s.e = none) : Inv c es (s.funcEnds c o) := by
  have hk' : Known c es o.exc := ⟨o, rfl, hk⟩
  unfold St.funcEnds
  cases o with
  | ret v =>
    dsimp only
    split
    · exact Inv.tear hk' (by simp [hs, he, Out.exc]) _
    · exact ⟨by simp, by simp, fun _ => ⟨_, hk', by simp [hs, he, Out.exc]⟩, by simp⟩
  | throw x =>
    dsimp only
    split
    · exact Inv.tear hk' (by simp [hs, Out.exc]) _
    · exact ⟨by simp, by simp, fun _ => ⟨_, hk', by simp [hs, Out.exc]⟩, by simp⟩

theorem Inv.step {c : Cfg} {es : List Ev} {s : St} (ev : Ev) (h : Inv c es s) : Inv c (es ++ [ev]) (s.step c ev) := by
  have mono : ∀ {e}, Known c es e → Known c (es ++ [ev]) e := by
    rintro e ⟨o, h1, h2⟩
    exact ⟨o, h1, h2.imp id (List.mem_append_left _)⟩
  have same : Inv c (es ++ [ev]) s := by
    refine ⟨h.created, h.inFunc, ?_, ?_⟩
    · intro hp; obtain ⟨e, a, b⟩ := h.inTear hp; exact ⟨e, mono a, b⟩
    · intro hp; obtain ⟨e, a, b⟩ := h.done hp; exact ⟨e, mono a, b⟩
  cases ev with
  | start =>
    simp only [St.step]
    split
    · rename_i hp
      obtain ⟨hc, he⟩ := h.created hp
      unfold St.start
      dsimp only
      split
      · rename_i o ho
        exact Inv.func (.inl ho) (by simp [hc]) he
      · exact ⟨by simp, fun _ => ⟨by simp [hc], he⟩, by simp, by simp⟩
    · exact same
  | funcEnds o =>
    simp only [St.step]
    split
    · rename_i hp
      obtain ⟨hc, he⟩ := h.inFunc hp
      exact Inv.func (.inr (by simp)) hc he
    · exact same
  | tearEnds t =>
    simp only [St.step]
    split
    · rename_i hp
      obtain ⟨e, a, b⟩ := h.inTear hp
      exact Inv.tear (mono a) b t
    · exact same

theorem Inv.run (c : Cfg) (es : List Ev) : Inv c es (St.run c es) := by
  have : ∀ (es h : List Ev) (s : St), Inv c h s → Inv c (h ++ es) (es.foldl (St.step c) s) := by
    intro es
    induction es with
    | nil => intro h s i; simpa using i
    | cons e es ih => intro h s i; simpa using ih _ _ (i.step e)
  exact this es [] {} ⟨fun _ => ⟨rfl, rfl⟩, by simp, by simp, by simp⟩

end Cobalt.With
