import Verif.Main.Spec
/-! # Lemmas about `co_main` -/
namespace Cobalt.Main

/-- Signals in the queue. -/
def sigs (q : List H) : List Sig := q.filterMap H.sig?

/-- Handlers that resume `co_main`. -/
def H.resumes : H → Bool
  | .start | .op _ => true
  | _ => false

def resumers (q : List H) : Nat := q.countP H.resumes

@[simp] theorem sigs_nil : sigs [] = [] := rfl
@[simp] theorem sigs_append (a b : List H) : sigs (a ++ b) = sigs a ++ sigs b := by simp [sigs]
@[simp] theorem sigs_sig (x : Sig) (q : List H) : sigs (.sig x :: q) = x :: sigs q := rfl
@[simp] theorem sigs_start (q : List H) : sigs (.start :: q) = sigs q := rfl
@[simp] theorem sigs_aborted (q : List H) : sigs (.aborted :: q) = sigs q := rfl
@[simp] theorem sigs_op (r : Option Int) (q : List H) : sigs (.op r :: q) = sigs q := rfl
@[simp] theorem resumers_nil : resumers [] = 0 := rfl
@[simp] theorem resumers_append (a b : List H) : resumers (a ++ b) = resumers a + resumers b := by
  simp [resumers]
@[simp] theorem resumers_sig (x : Sig) (q : List H) : resumers (.sig x :: q) = resumers q := by
  simp [resumers, H.resumes]
@[simp] theorem resumers_start (q : List H) : resumers (.start :: q) = resumers q + 1 :=
  List.countP_cons_of_pos rfl
@[simp] theorem resumers_aborted (q : List H) : resumers (.aborted :: q) = resumers q := by
  simp [resumers, H.resumes]
@[simp] theorem resumers_op (r : Option Int) (q : List H) : resumers (.op r :: q) = resumers q + 1 :=
  List.countP_cons_of_pos rfl

/-- What holds after every list of events. `rs` are the signals raised. -/
structure Inv (rs : List Sig) (s : St) : Prop where
  wait : s.waiting = true → s.kept = [] ∧ sigs s.queue = []
  single : (sigs s.queue).length ≤ 1
  fr : s.frame = true → s.returned = none ∧ s.late = []
  nofr : s.frame = false → s.returned = some s.res ∧ s.busy = false ∧ resumers s.queue = 0
  one : s.busy = true → resumers s.queue = 0
  two : resumers s.queue ≤ 1
  emit : s.emitted = s.handled.map meaning
  cons : s.ub = false → s.handled ++ sigs s.queue ++ s.kept = rs
  ubf : s.ub = true → s.frame = false

theorem Inv.init : Inv [] {} := by
  constructor <;> simp

theorem meaning_eq (x : Sig) : x.cancel = meaning x := by cases x <;> rfl

theorem Inv.arm {rs : List Sig} {s : St} (w : s.waiting = false) (i : Inv rs s)
    (hq : sigs s.queue = []) (hu : s.ub = false) : Inv rs s.arm := by
  obtain ⟨queue, waiting, kept, frame, started, busy, res, emitted, handled, ub, returned, late⟩ := s
  obtain ⟨h1, h2, h3, h4, h5, h6, h7, h8, h9⟩ := i
  simp only at *
  subst w hu
  unfold St.arm
  cases kept with
  | nil => constructor <;> simp_all
  | cons x l => constructor <;> simp_all

theorem Inv.finish {rs : List Sig} {s : St} (i : Inv rs s) (v : Int) (hu : s.ub = false)
    (hr : resumers s.queue = 0) : Inv rs (s.finish v) := by
  obtain ⟨queue, waiting, kept, frame, started, busy, res, emitted, handled, ub, returned, late⟩ := s
  obtain ⟨h1, h2, h3, h4, h5, h6, h7, h8, h9⟩ := i
  simp only at *
  subst hu
  unfold St.finish
  cases waiting <;> constructor <;> simp_all

theorem Inv.pump {rs : List Sig} {s : St} (i : Inv rs s) (hu : s.ub = false) (now : Option Int) :
    Inv rs (s.pump now) := by
  unfold St.pump
  cases hq : s.queue with
  | nil => exact i
  | cons h q =>
    simp only
    cases h with
    | start =>
      obtain ⟨queue, waiting, kept, frame, started, busy, res, emitted, handled, ub, returned, late⟩ := s
      obtain ⟨h1, h2, h3, h4, h5, h6, h7, h8, h9⟩ := i
      simp only at *
      subst hu hq
      constructor <;> simp_all
    | aborted =>
      obtain ⟨queue, waiting, kept, frame, started, busy, res, emitted, handled, ub, returned, late⟩ := s
      obtain ⟨h1, h2, h3, h4, h5, h6, h7, h8, h9⟩ := i
      simp only at *
      subst hu hq
      constructor <;> simp_all
    | op r =>
      have j : Inv rs { s with queue := q, busy := true } ∧ resumers q = 0 := by
        obtain ⟨queue, waiting, kept, frame, started, busy, res, emitted, handled, ub, returned, late⟩ := s
        obtain ⟨h1, h2, h3, h4, h5, h6, h7, h8, h9⟩ := i
        simp only at *
        subst hu hq
        refine ⟨?_, by simpa using h6⟩
        constructor <;> simp_all
      cases r with
      | none => exact j.1
      | some v => exact j.1.finish v hu j.2
    | sig x =>
      simp only [St.work]
      split
      · rename_i hf
        have hw : s.waiting = false := by
          cases h : s.waiting
          · rfl
          · have := (i.wait h).2; rw [hq] at this; simp at this
        have hs : sigs q = [] := by
          have := i.single; rw [hq] at this; simpa using this
        have j : Inv rs { s with queue := q, emitted := s.emitted ++ [x.cancel], handled := s.handled ++ [x] } := by
          obtain ⟨queue, waiting, kept, frame, started, busy, res, emitted, handled, ub, returned, late⟩ := s
          obtain ⟨h1, h2, h3, h4, h5, h6, h7, h8, h9⟩ := i
          simp only at *
          subst hu hq
          constructor <;> simp_all [meaning_eq]
        cases now with
        | none => exact j.arm hw hs hu
        | some v =>
          simp only
          split
          · rename_i hb
            refine Inv.arm (s := St.finish _ v) rfl (j.finish v hu (j.one hb)) ?_ hu
            simp [St.finish, hw, hs]
          · exact j.arm hw hs hu
      · rename_i hf
        obtain ⟨queue, waiting, kept, frame, started, busy, res, emitted, handled, ub, returned, late⟩ := s
        obtain ⟨h1, h2, h3, h4, h5, h6, h7, h8, h9⟩ := i
        simp only at *
        subst hu hq
        constructor <;> simp_all

theorem Inv.step {rs : List Sig} {s : St} (i : Inv rs s) (e : Ev) :
    Inv (rs ++ raised [e]) (s.step e) := by
  unfold St.step
  split
  · rename_i hu
    obtain ⟨h1, h2, h3, h4, h5, h6, h7, h8, h9⟩ := i
    exact ⟨h1, h2, h3, h4, h5, h6, h7, fun h => (by rw [hu] at h; cases h), h9⟩
  · rename_i hu
    have hu : s.ub = false := by simpa using hu
    cases e with
    | raise x =>
      obtain ⟨queue, waiting, kept, frame, started, busy, res, emitted, handled, ub, returned, late⟩ := s
      obtain ⟨h1, h2, h3, h4, h5, h6, h7, h8, h9⟩ := i
      simp only at *
      subst hu
      split
      · constructor <;> simp_all [raised]
      · constructor <;> simp_all [raised]
        rw [← h8]; simp
    | pump now => simpa [raised] using i.pump hu now
    | opEnds r =>
      simp only [raised, List.append_nil]
      split
      · obtain ⟨queue, waiting, kept, frame, started, busy, res, emitted, handled, ub, returned, late⟩ := s
        obtain ⟨h1, h2, h3, h4, h5, h6, h7, h8, h9⟩ := i
        simp only at *
        subst hu
        constructor <;> simp_all
      · exact i

theorem raised_cons (e : Ev) (es : List Ev) : raised (e :: es) = raised [e] ++ raised es := by
  cases e <;> rfl

theorem Inv.foldl (es : List Ev) : ∀ {rs : List Sig} {s : St}, Inv rs s →
    Inv (rs ++ raised es) (es.foldl St.step s) := by
  induction es with
  | nil => intro rs s i; simpa [raised] using i
  | cons e es ih =>
    intro rs s i
    rw [raised_cons, ← List.append_assoc]
    exact ih (i.step e)

theorem Inv.run (es : List Ev) : Inv (raised es) (St.run es) := by
  have := Inv.foldl es Inv.init
  rw [List.nil_append] at this
  exact this

/-! ### Without returns from within an emission -/

/-- After the return no wait is pending, and the queue has the signals it had then. -/
structure Calm (s : St) : Prop where
  wt : s.frame = false → s.waiting = false
  lt : s.frame = false → s.ub = false → sigs s.queue = s.late
  ub : s.ub = true → s.late ≠ []

theorem Calm.step {rs : List Sig} {s : St} (i : Inv rs s) (c : Calm s) (e : Ev)
    (he : ∀ v, e ≠ .pump (some v)) : Calm (s.step e) := by
  unfold St.step
  split
  · exact c
  · rename_i hu
    have hu : s.ub = false := by simpa using hu
    cases e with
    | raise x =>
      obtain ⟨c1, c2, c3⟩ := c
      dsimp only
      split
      · rename_i hw
        refine ⟨fun h => rfl, fun h => ?_, fun h => by rw [hu] at h; cases h⟩
        have := c1 h; rw [hw] at this; cases this
      · exact ⟨c1, c2, c3⟩
    | opEnds r =>
      obtain ⟨c1, c2, c3⟩ := c
      dsimp only
      split
      · rename_i hb
        refine ⟨c1, fun h => ?_, c3⟩
        have := (i.nofr h).2.1; rw [hb] at this; cases this
      · exact ⟨c1, c2, c3⟩
    | pump now =>
      cases now with
      | some v => exact absurd rfl (he v)
      | none =>
        obtain ⟨c1, c2, c3⟩ := c
        simp only [St.pump]
        cases hq : s.queue with
        | nil => exact ⟨c1, c2, c3⟩
        | cons h q =>
          simp only
          cases h with
          | start =>
            refine ⟨c1, fun h => ?_, c3⟩
            have := (i.nofr h).2.2; rw [hq] at this; simp at this
          | aborted =>
            refine ⟨c1, fun h hu => ?_, c3⟩
            have := c2 h hu; rw [hq] at this; simpa using this
          | op r =>
            cases r with
            | none =>
              refine ⟨c1, fun h => ?_, c3⟩
              have := (i.nofr h).2.2; rw [hq] at this; simp at this
            | some v =>
              refine ⟨fun _ => rfl, fun _ _ => ?_, fun h => by simp [St.finish, hu] at h⟩
              simp only [St.finish]
              cases s.waiting <;> simp [sigs, H.sig?]
          | sig x =>
            simp only [St.work]
            split
            · rename_i hf
              unfold St.arm
              split
              · exact ⟨fun h => (by simp [hf] at h), fun h => (by simp [hf] at h), fun h => (by simp [hu] at h)⟩
              · exact ⟨fun h => (by simp [hf] at h), fun h => (by simp [hf] at h), fun h => (by simp [hu] at h)⟩
            · rename_i hf
              have hf : s.frame = false := by simpa using hf
              refine ⟨fun _ => c1 hf, fun _ h => (by cases h), fun _ => ?_⟩
              have := c2 hf hu
              rw [hq] at this
              simp only [sigs_sig] at this
              simp [← this]

theorem Calm.foldl (es : List Ev) : ∀ {rs : List Sig} {s : St}, Inv rs s → Calm s → Posted es →
    Calm (es.foldl St.step s) := by
  induction es with
  | nil => exact fun _ c _ => c
  | cons e es ih =>
    intro rs s i c hp
    exact ih (i.step e) (c.step i e (hp e (List.mem_cons_self ..)))
      (fun e' he' => hp e' (List.mem_cons_of_mem _ he'))

theorem Calm.run (es : List Ev) (hp : Posted es) : Calm (St.run es) :=
  Calm.foldl es Inv.init ⟨by simp, by simp, by simp⟩ hp

/-! ### The loop ends -/

/-- Handlers left after `co_main` has returned: with no signal among them they do nothing. -/
theorem goOn_calm : ∀ (n : Nat) {s : St}, s.frame = false → s.ub = false → sigs s.queue = [] →
    resumers s.queue = 0 → s.queue.length ≤ n →
    (goOn n).foldl St.step s = { s with queue := [] } := by
  intro n
  induction n with
  | zero =>
    intro s _ _ _ _ hl
    have : s.queue = [] := List.eq_nil_of_length_eq_zero (by omega)
    simp only [goOn, List.foldl_nil]
    rw [← this]
  | succ n ih =>
    intro s hf hu hs hr hl
    have e : s.step (.pump none) = s.pump none := by simp [St.step, hu]
    rw [goOn, List.foldl_cons, e]
    unfold St.pump
    cases hq : s.queue with
    | nil =>
      simp only
      exact ih hf hu hs hr (by rw [hq]; simp)
    | cons h q =>
      rw [hq] at hs hr hl
      cases h with
      | start => simp at hr
      | op r => simp at hr
      | sig x => simp at hs
      | aborted =>
        simp only
        rw [ih (s := { s with queue := q }) hf hu (by simpa using hs) (by simpa using hr) (by simpa using hl)]

/-- With a signal among them they reach it. -/
theorem goOn_late : ∀ (n : Nat) {s : St}, s.frame = false → s.ub = false → sigs s.queue ≠ [] →
    resumers s.queue = 0 → s.queue.length ≤ n → ((goOn n).foldl St.step s).ub = true := by
  intro n
  induction n with
  | zero =>
    intro s _ _ hs _ hl
    have : s.queue = [] := List.eq_nil_of_length_eq_zero (by omega)
    rw [this] at hs; exact absurd rfl hs
  | succ n ih =>
    intro s hf hu hs hr hl
    have e : s.step (.pump none) = s.pump none := by simp [St.step, hu]
    rw [goOn, List.foldl_cons, e]
    unfold St.pump
    cases hq : s.queue with
    | nil => rw [hq] at hs; exact absurd rfl hs
    | cons h q =>
      rw [hq] at hs hr hl
      cases h with
      | start => simp at hr
      | op r => simp at hr
      | aborted =>
        simp only
        exact ih (s := { s with queue := q }) hf hu (by simpa using hs) (by simpa using hr) (by simpa using hl)
      | sig x =>
        have key : ∀ (l : List Ev) (t : St), t.ub = true → (l.foldl St.step t).ub = true := by
          intro l
          induction l with
          | nil => exact fun _ h => h
          | cons e l ih' =>
            intro t ht
            have : t.step e = t := by simp [St.step, ht]
            rw [List.foldl_cons, this]; exact ih' t ht
        exact key _ _ (by simp [St.work, hf])

/-! ### Returns from within an emission -/

/-- `co_main` returned while a cancellation was emitted. -/
def Inside (es : List Ev) : Prop :=
  ∃ a v b x, es = a ++ .pump (some v) :: b ∧ (St.run a).ub = false ∧ (St.run a).busy = true ∧
    (St.run a).frame = true ∧ (St.run a).queue.head? = some (.sig x)

/-- Without what was to happen within emissions. -/
def Ev.plain : Ev → Ev
  | .pump _ => .pump none
  | e => e

theorem raised_plain (es : List Ev) : raised (es.map Ev.plain) = raised es := by
  induction es with
  | nil => rfl
  | cons e es ih =>
    rw [List.map_cons, raised_cons, ih, raised_cons e es]
    cases e <;> rfl

theorem step_plain (s : St) (e : Ev) (h : ∀ v x, e = .pump (some v) → s.ub = false → s.busy = true →
    s.frame = true → s.queue.head? ≠ some (.sig x)) : s.step e.plain = s.step e := by
  cases e with
  | raise x => rfl
  | opEnds r => rfl
  | pump now =>
    cases now with
    | none => rfl
    | some v =>
      simp only [Ev.plain, St.step]
      split
      · rfl
      · rename_i hu
        simp only [St.pump]
        cases hq : s.queue with
        | nil => rfl
        | cons hd q =>
          cases hd with
          | sig x =>
            simp only [St.work]
            split
            · rename_i hf
              have hb : s.busy = false := by
                cases hb : s.busy
                · rfl
                · exact absurd (by rw [hq]; rfl) (h v x rfl (by simpa using hu) hb hf)
              simp [hb]
            · rfl
          | op r => cases r <;> rfl
          | start => rfl
          | aborted => rfl

theorem run_plain (es : List Ev) (h : ¬ Inside es) : St.run (es.map Ev.plain) = St.run es := by
  have key : ∀ (b a : List Ev), a ++ b = es → (b.map Ev.plain).foldl St.step (St.run a) = St.run (a ++ b) := by
    intro b
    induction b with
    | nil => intro a _; simp
    | cons e b ih =>
      intro a ha
      rw [List.map_cons, List.foldl_cons, step_plain _ _ fun v x hv hu hb hf hq =>
        h ⟨a, v, b, x, by rw [← ha, hv], hu, hb, hf, hq⟩]
      have := ih (a ++ [e]) (by simpa using ha)
      simpa [St.run, List.foldl_append] using this
  exact key es [] rfl

/-- What a return from within an emission leaves behind. -/
structure Armed (s : St) : Prop where
  frame : s.frame = false
  busy : s.busy = false
  res : resumers s.queue = 0
  left : s.ub = true ∨ s.waiting = true ∨ sigs s.queue ≠ []

theorem Armed.step {s : St} (h : Armed s) (e : Ev) : Armed (s.step e) := by
  obtain ⟨queue, waiting, kept, frame, started, busy, res, emitted, handled, ub, returned, late⟩ := s
  obtain ⟨h1, h2, h3, h4⟩ := h
  simp only at *
  subst h1 h2
  unfold St.step
  cases ub with
  | true => exact ⟨rfl, rfl, h3, .inl rfl⟩
  | false =>
    cases e with
    | raise x => cases waiting <;> constructor <;> simp_all
    | opEnds r => exact ⟨rfl, rfl, h3, h4⟩
    | pump now =>
      cases queue with
      | nil => exact ⟨rfl, rfl, h3, h4⟩
      | cons hd q => cases hd <;> constructor <;> simp_all [St.pump, St.work]

theorem Armed.foldl (es : List Ev) : ∀ {s : St}, Armed s → Armed (es.foldl St.step s) := by
  induction es with
  | nil => exact fun h => h
  | cons e es ih => exact fun h => ih (h.step e)

theorem Armed.run {es : List Ev} (h : Inside es) : Armed (St.run es) := by
  obtain ⟨a, v, b, x, rfl, hu, hb, hf, hq⟩ := h
  have i := Inv.run a
  have h1 : Armed ((St.run a).step (.pump (some v))) := by
    generalize St.run a = s at *
    obtain ⟨queue, waiting, kept, frame, started, busy, res, emitted, handled, ub, returned, late⟩ := s
    have hr := i.one hb
    simp only at *
    subst hu hb hf
    cases queue with
    | nil => cases hq
    | cons hd q =>
      obtain rfl : hd = .sig x := by simpa using hq
      rw [resumers_sig] at hr
      cases waiting <;> cases kept <;> constructor <;>
        simp [St.step, St.pump, St.work, St.arm, St.finish, hr]
  have := h1.foldl b
  simpa [St.run, List.foldl_append] using this

end Cobalt.Main
