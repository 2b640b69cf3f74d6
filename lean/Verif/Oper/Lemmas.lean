import Verif.Oper.Spec

/-!
# Initiation, script by script
-/
namespace Cobalt.Oper

/-- The flag while a script runs. -/
def fl (work ran : Bool) : Flag := if work && !ran then .maybe else .initiating

/-- The state during initiation while the handler is there. -/
def mk (f : Flag) : S := { flag := f, holder := .held, init := true }

/-- The states a script ends with. -/
def Ends (work ran' bad : Bool) (r : End) (t : S) : Prop :=
  match r with
  | .kept => t = mk (fl work ran')
  | .completed v =>
    if bad then t.early = true ∧ t.exc = false ∧ (t.ub = true ∨ t.alive = false)
    else t = { mk .yes with result := some v, holder := .gone }
  | .stored => t = { mk (fl work ran') with holder := .stored }
  | .dropped => t.exc = false ∧ t.holder = .gone ∧ t.early = false ∧ (t.ub = true ∨ t.alive = false)
  | .thrown => t = { mk (fl work ran') with exc := true }

theorem inline_fl (w k : Bool) : (mk (fl w k)).inline = true := by
  cases w <;> cases k <;> rfl

theorem eval_idle {a : Act} (h : a.idle = true) (s : S) : eval a s = s := by
  induction a generalizing s with
  | skip => rfl
  | seq a b iha ihb =>
    simp only [Act.idle, Bool.and_eq_true] at h
    simp only [eval, iha h.1, ihb h.2, ite_self]
  | _ => simp [Act.idle] at h

theorem eval_ends (a : Act) : ∀ (w k : Bool) (r : End), fate w a = some r → throwsFromWork a = false →
    Ends w (spoiled w k a).2 (spoiled w k a).1 r (eval a (mk (fl w k))) := by
  induction a with
  | skip =>
    intro w k r h _
    obtain rfl : End.kept = r := by simpa [fate] using h
    rfl
  | seq a b iha ihb =>
    intro w k r h ht
    simp only [throwsFromWork, Bool.or_eq_false_iff] at ht
    cases hf : fate w a with
    | none => simp [fate, hf] at h
    | some ra =>
      have ea := iha w k ra hf ht.1
      cases ra with
      | kept =>
        simp only [fate, hf] at h
        have eb := ihb w (spoiled w k a).2 r h ht.2
        simp only [spoiled, hf, if_true]
        simp only [Ends] at ea
        simp only [eval, ea]
        exact eb
      | thrown =>
        obtain rfl : End.thrown = r := by simpa [fate, hf] using h
        simp only [spoiled, hf]
        simp only [Ends] at ea ⊢
        simp only [eval, ea]
        simp
      | completed v =>
        simp only [fate, hf] at h
        split at h
        · rename_i hi
          obtain rfl : End.completed v = r := by simpa using h
          have : eval (.seq a b) (mk (fl w k)) = eval a (mk (fl w k)) := by
            simp only [eval, eval_idle hi, ite_self]
          rw [this]
          simpa [spoiled, hf] using ea
        · cases h
      | stored =>
        simp only [fate, hf] at h
        split at h
        · rename_i hi
          obtain rfl : End.stored = r := by simpa using h
          have : eval (.seq a b) (mk (fl w k)) = eval a (mk (fl w k)) := by
            simp only [eval, eval_idle hi, ite_self]
          rw [this]
          simpa [spoiled, hf] using ea
        · cases h
      | dropped =>
        simp only [fate, hf] at h
        split at h
        · rename_i hi
          obtain rfl : End.dropped = r := by simpa using h
          have : eval (.seq a b) (mk (fl w k)) = eval a (mk (fl w k)) := by
            simp only [eval, eval_idle hi, ite_self]
          rw [this]
          simpa [spoiled, hf] using ea
        · cases h
  | exec a ih =>
    intro w k r h ht
    simp only [throwsFromWork, Bool.or_eq_false_iff, decide_eq_false_iff_not] at ht
    simp only [fate] at h
    have e := ih true false r h ht.2
    have hev : eval (.exec a) (mk (fl w k)) = (eval a (mk (fl true false))).after := by
      simp only [eval, inline_fl]
      rfl
    rw [hev]
    simp only [spoiled]
    have hfl : fl w true = .initiating := by cases w <;> rfl
    cases r with
    | kept =>
      simp only [Ends] at e ⊢
      rw [e, hfl]
      cases (spoiled true false a).2 <;> rfl
    | completed v =>
      simp only [Ends] at e ⊢
      split
      · rename_i hb
        rw [if_pos hb] at e
        obtain ⟨e1, e2, e3⟩ := e
        cases hu : (eval a (mk (fl true false))).ub
        · rw [hu] at e3
          simp only [S.after, e2, hu, Bool.or_self]
          have : (eval a (mk (fl true false))).alive = false := by simpa using e3
          simp [this, e1]
        · simp [S.after, hu, e1, e2]
      · rename_i hb
        rw [if_neg hb] at e
        rw [e]; rfl
    | stored =>
      simp only [Ends] at e ⊢
      rw [e, hfl]
      cases (spoiled true false a).2 <;> rfl
    | dropped =>
      simp only [Ends] at e ⊢
      obtain ⟨e1, e2, e3, e4⟩ := e
      cases hu : (eval a (mk (fl true false))).ub
      · rw [hu] at e4
        have : (eval a (mk (fl true false))).alive = false := by simpa using e4
        simp [S.after, hu, this, e1, e2, e3]
      · simp [S.after, hu, e1, e2, e3]
    | thrown => exact absurd h ht.1
  | attempt a ih =>
    intro w k r h ht
    simp only [throwsFromWork] at ht
    cases hf : fate w a with
    | none => simp [fate, hf] at h
    | some ra =>
      have e := ih w k ra hf ht
      simp only [spoiled, eval]
      cases ra with
      | thrown =>
        obtain rfl : End.kept = r := by simpa [fate, hf] using h
        simp only [Ends] at e ⊢
        rw [e]; rfl
      | kept =>
        obtain rfl : End.kept = r := by simpa [fate, hf] using h
        simp only [Ends] at e ⊢
        rw [e]; rfl
      | stored =>
        obtain rfl : End.stored = r := by simpa [fate, hf] using h
        simp only [Ends] at e ⊢
        rw [e]; rfl
      | completed v =>
        obtain rfl : End.completed v = r := by simpa [fate, hf] using h
        simp only [Ends] at e ⊢
        split
        · rename_i hb
          rw [if_pos hb] at e
          exact ⟨e.1, trivial, e.2.2⟩
        · rename_i hb
          rw [if_neg hb] at e
          rw [e]; rfl
      | dropped =>
        obtain rfl : End.dropped = r := by simpa [fate, hf] using h
        simp only [Ends] at e ⊢
        exact ⟨trivial, e.2.1, e.2.2.1, e.2.2.2⟩
  | complete v =>
    intro w k r h _
    cases w with
    | false => simp [fate] at h
    | true =>
      obtain rfl : End.completed v = r := by simpa [fate] using h
      cases k <;> simp [Ends, spoiled, eval, fl, mk, S.complete, S.goOn]
  | store =>
    intro w k r h _
    obtain rfl : End.stored = r := by simpa [fate] using h
    simp [Ends, spoiled, eval, mk]
  | drop =>
    intro w k r h _
    obtain rfl : End.dropped = r := by simpa [fate] using h
    simp [Ends, eval, mk, S.drop]
  | throw =>
    intro w k r h _
    obtain rfl : End.thrown = r := by simpa [fate] using h
    simp [Ends, spoiled, eval, mk]

/-- `co_await` has given at most one result, and once it has the awaitable is gone. -/
def Once (s : S) : Prop := s.returned.length ≤ 1 ∧ (s.returned ≠ [] → s.alive = false)

theorem Once.nil {s : S} (h : Once s) (ha : s.alive = true) : s.returned = [] := by
  refine Classical.byContradiction fun hn => ?_
  rw [h.2 hn] at ha; cases ha

theorem Once.congr {s t : S} (h : Once s) (h1 : t.returned = s.returned) (h2 : s.alive = false → t.alive = false) :
    Once t := by
  refine ⟨by rw [h1]; exact h.1, fun hn => h2 (h.2 (by rwa [h1] at hn))⟩

theorem Once.goOn {s : S} (h : Once s) (ha : s.alive = true) : Once s.goOn := by
  have := h.nil ha
  unfold S.goOn
  split
  · exact ⟨by simp [this], fun _ => rfl⟩
  · exact h.congr rfl (fun h => h)

theorem Once.complete {s : S} (h : Once s) (v : Nat) : Once (s.complete v) := by
  unfold S.complete
  split
  · exact h.congr rfl (fun h => h)
  · rename_i hc
    have ha : s.alive = true := by simp at hc; exact hc.2
    dsimp only
    split
    · exact h.congr rfl (fun h => h)
    · exact Once.goOn (h.congr rfl (fun h => h)) ha

theorem Once.drop {s : S} (h : Once s) : Once s.drop := by
  unfold S.drop
  repeat' split
  all_goals exact h.congr rfl (fun h => by simp_all)

theorem Once.after {s : S} (h : Once s) : Once s.after := by
  unfold S.after
  repeat' split
  all_goals exact h.congr rfl (fun h => by simp_all)

theorem Once.eval (a : Act) : ∀ {s : S}, Once s → Once (eval a s) := by
  induction a with
  | skip => exact fun h => h
  | seq a b iha ihb =>
    intro s h
    simp only [Oper.eval]
    split
    · exact iha h
    · exact ihb (iha h)
  | exec a ih =>
    intro s h
    simp only [Oper.eval]
    repeat' split
    · exact h.congr rfl (fun h => h)
    · exact (ih (s := { s with flag := .maybe }) (h.congr rfl (fun h => h))).after
    · exact h.congr rfl (fun h => h)
  | attempt a ih => intro s h; exact (ih h).congr rfl (fun h => h)
  | complete v => intro s h; exact h.complete v
  | store =>
    intro s h
    simp only [Oper.eval]
    split <;> exact h.congr rfl (fun h => h)
  | drop => intro s h; exact h.drop
  | throw => intro s h; exact h.congr rfl (fun h => h)

theorem Once.failed {s : S} (h : Once s) : Once s.failed := by
  unfold S.failed
  split
  · exact h.drop.congr rfl (fun h => h)
  · rename_i hc
    have hd := h.drop
    have ha : s.drop.alive = true := by simp at hc; exact hc.2
    have hr : s.drop.returned = s.returned := by
      unfold S.drop
      repeat' split
      all_goals rfl
    have := hd.nil ha
    rw [hr] at this
    exact ⟨by simp [this], fun _ => rfl⟩

theorem Once.initiated {s : S} (h : Once s) : Once s.initiated := by
  unfold S.initiated
  split
  · exact h.drop.congr rfl (fun h => h)
  · rename_i hc
    have ha : s.drop.alive = true := by simp at hc; exact hc.2
    split
    · exact Once.goOn (h.drop.congr rfl (fun h => h)) ha
    · exact h.drop.congr rfl (fun h => h)

theorem Once.await (ready : Option Nat) (a : Act) : Once (S.await ready a) := by
  unfold S.await
  split
  · exact Once.goOn ⟨by simp, by simp⟩ rfl
  · have h : Once (Oper.eval a { flag := .initiating, holder := .held, init := true }) :=
      Once.eval a ⟨by simp, by simp⟩
    unfold S.suspend
    dsimp only
    repeat' split
    · exact h
    · exact h.failed
    · exact h.initiated

theorem Once.later {s : S} (h : Once s) (a : Act) : Once (s.later a) := by
  unfold S.later
  split
  · exact h
  · have h' : Once (Oper.eval a { s with holder := .held }) := Once.eval a (h.congr rfl (fun h => h))
    dsimp only
    repeat' split
    · exact h'
    · exact h'.congr rfl (fun h => h)
    · exact h'.drop.congr rfl (fun h => h)

theorem Once.run {s : S} (h : Once s) : Once s.run := by
  unfold S.run
  split
  · exact h
  · rename_i as _
    exact Once.later (s := { s with posted := as }) (h.congr rfl (fun h => h)) _

end Cobalt.Oper
