import Verif.Py.Spec
/-! # Invariant of the bridge to Python -/
namespace Cobalt.Py

theorem steps_snoc (s : St) (es : List Ev) (e : Ev) : s.steps (es ++ [e]) = (s.steps es).step e := by
  simp [St.steps, List.foldl_append]

theorem run_snoc (es : List Ev) (e : Ev) : run (es ++ [e]) = (run es).step e := steps_snoc _ es e

theorem hist_snoc (es : List Ev) (e : Ev) : hist (es ++ [e]) = (hist es).next e := by
  simp [hist, List.foldl_append]

theorem awaits_append (a b : List Ev) : awaits (a ++ b) = awaits a ++ awaits b := by
  induction a with
  | nil => rfl
  | cons e a ih => simp [awaits, ih]

theorem cancels_append (a b : List Ev) : cancels (a ++ b) = cancels a ++ cancels b := by
  induction a with
  | nil => rfl
  | cons e a ih => cases e <;> simp [cancels, ih]

theorem tasks_append (a b : List Ev) : tasks (a ++ b) = tasks a ++ tasks b := by
  induction a with
  | nil => rfl
  | cons e a ih => cases e <;> simp [tasks, ih]

theorem callbacks_append (a b : List Ev) : callbacks (a ++ b) = callbacks a + callbacks b := by
  induction a with
  | nil => simp [callbacks]
  | cons e a ih => cases e <;> simp [callbacks, ih, Nat.add_right_comm]

theorem outs_append (a b : List (Nat × Got)) : outs (a ++ b) = outs a ++ outs b := by
  induction a with
  | nil => rfl
  | cons x a ih => obtain ⟨f, g⟩ := x; cases g <;> simp [outs, ih]

theorem legal_append (s : St) (u : List Nat) (a b : List Ev) :
    Legal s u (a ++ b) ↔ Legal s u a ∧ Legal (s.steps a) (u ++ awaits a) b := by
  induction a generalizing s u with
  | nil => simp [Legal, St.steps, awaits]
  | cons e a ih =>
    have h : s.steps (e :: a) = (s.step e).steps a := rfl
    simp [Legal, ih, awaits, h, and_assoc]

theorem legal_snoc (es : List Ev) (e : Ev) :
    Legal {} [] (es ++ [e]) ↔ Legal {} [] es ∧ Ok (run es) (awaits es) e := by
  simp [legal_append, Legal, run]

/-- Induction over the events of a legal run. -/
theorem legal_ind {P : List Ev → Prop} (h0 : P [])
    (h1 : ∀ es e, Legal {} [] es → P es → Ok (run es) (awaits es) e → P (es ++ [e])) :
    ∀ es, Legal {} [] es → P es := by
  intro es
  have : ∀ l : List Ev, Legal {} [] l.reverse → P l.reverse := by
    intro l
    induction l with
    | nil => intro _; exact h0
    | cons e l ih =>
      intro h
      rw [List.reverse_cons] at h ⊢
      have h' := (legal_snoc _ _).1 h
      exact h1 _ _ h'.1 (ih h'.1) h'.2
  intro h
  simpa using this es.reverse (by simpa using h)

theorem ub_stays (s : St) (h : s.ub = true) (e : Ev) : s.step e = s := by
  unfold St.step; simp [h]

theorem ub_snoc {es : List Ev} {e : Ev} (h : (run (es ++ [e])).ub = false) : (run es).ub = false := by
  cases h' : (run es).ub with
  | false => rfl
  | true => rw [run_snoc, ub_stays _ h', h'] at h; cases h

/-- Whom the coroutine works for, also if the task it awaits was cancelled. -/
def St.works (s : St) : List Nat := if s.running then [s.future] else []

/-- Where the coroutine is. -/
structure Ph (h : Hist) (s : St) : Prop where
  cur : h.cur = if s.running && !(s.task == some .cancelled) then some s.future else none
  tc : s.task = some .cancelled → h.over = true
  held : s.handle = true → s.running = false ∧ s.done = false ∧ s.alive = true ∧ s.freed = 0 ∧ h.over = false
  runs : s.running = true → s.handle = false ∧ s.done = false ∧ s.freed = 0
  rest : s.handle = false → s.running = false → s.freed = 1 ∧ (h.over = true ∨ s.alive = false)
  frame : s.frame = true ↔ s.freed = 0
  task : s.task ≠ none → s.running = true
  dn : s.done = true → s.freed = 1
  live : s.running = true → s.task ≠ some .cancelled → h.over = false

theorem ph_init : Ph {} {} := by constructor <;> simp

theorem Ph.step {h : Hist} {s : St} {u : List Nat} {e : Ev} (i : Ph h s) (hs : s.ub = false) (ok : Ok s u e)
    (hu : (s.step e).ub = false) : Ph (h.next e) (s.step e) := by
  obtain ⟨i1, i2, i3, i4, i5, i6, i7, i8, i9⟩ := i
  have hst : s.step e = s.go e := by unfold St.step; rw [hs]; rfl
  rw [hst] at hu ⊢
  unfold St.go at hu ⊢
  cases e with
  | await f l =>
    obtain ⟨o1, o2⟩ := ok
    simp only [Hist.next, St.await]
    cases hh : s.handle with
    | false =>
      have : ¬(h.cur = none ∧ h.over = false) := by
        intro ⟨h1, h2⟩
        cases hr : s.running with
        | true =>
          rw [i1, hr] at h1
          have : s.task = some .cancelled := by simpa using h1
          rw [i2 this] at h2; cases h2
        | false =>
          rcases (i5 hh hr).2 with h' | h'
          · rw [h'] at h2; cases h2
          · rw [h'] at o1; cases o1
      simp only [this, if_false, if_true]
      constructor <;> simp_all
    | true =>
      have h3 := i3 hh
      have ht : s.task = none := by
        cases ht : s.task with
        | none => rfl
        | some t => have := i7 (by simp [ht]); simp [h3.1] at this
      have : h.cur = none := by rw [i1, h3.1]; rfl
      simp only [h3, this, Bool.true_eq_false, if_false, Bool.false_eq_true, and_self, if_true]
      constructor <;> simp_all
  | act a =>
    obtain ⟨o1, o2⟩ := ok
    have : h.cur = some s.future := by rw [i1, o1, o2]; rfl
    simp only [Hist.next, this]
    cases a with
    | yield v =>
      simp only [St.act] at hu ⊢
      cases ha : s.alive with
      | false => simp [ha] at hu
      | true => constructor <;> simp_all [Act.last]
    | _ => constructor <;> simp_all [St.act, Act.last]
  | callback =>
    simp only [Hist.next, St.callback]
    split
    · exact ⟨i1, i2, i3, i4, i5, i6, i7, i8, i9⟩
    · split <;> exact ⟨i1, i2, i3, i4, i5, i6, i7, i8, i9⟩
  | cancel f =>
    simp only [Hist.next, St.cancel]
    split <;> exact ⟨i1, i2, i3, i4, i5, i6, i7, i8, i9⟩
  | drop =>
    simp only [Hist.next, St.drop]
    cases hh : s.handle <;> cases hr : s.running <;> constructor <;> simp_all
  | awaitTask => obtain ⟨o1, o2⟩ := ok; constructor <;> simp_all [Hist.next]
  | taskEnds t =>
    have ok : s.task = some .pending := ok
    have hr := i7 (by simp [ok])
    cases t <;> constructor <;> simp_all [Hist.next]
  | taskCallback =>
    have hr := i7 ok.1
    simp only [Hist.next, St.taskCallback]
    split
    · constructor <;> simp_all
    · constructor <;> simp_all
    · exact ⟨i1, i2, i3, i4, i5, i6, i7, i8, i9⟩

theorem ph {es : List Ev} (hl : Legal {} [] es) : (run es).ub = false → Ph (hist es) (run es) := by
  refine legal_ind (P := fun es => (run es).ub = false → Ph (hist es) (run es)) (fun _ => ph_init) ?_ es hl
  intro es e _ ih ok hu
  have h := ub_snoc hu
  rw [run_snoc] at hu ⊢
  rw [hist_snoc]
  exact (ih h).step h ok hu

end Cobalt.Py
