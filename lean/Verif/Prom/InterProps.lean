import Verif.Prom.Props
/-! C26 for every history of awaits and interruptions of a promise. -/
namespace Cobalt.Prom

/-- Await `a` is the one the promise at 0 will resume. -/
def St.waits (s : St) (a : Nat) : Prop := ∃ R, s.recv 0 = some R ∧ R.awaited = some a

/-- Await the promise at 0, interrupt an await, or end coroutine 0. Not interrupted is an
await that has ended while another one waits. -/
def St.plain (s : St) : Ev → Prop
  | .await _ r => r = 0
  | .interrupt a => ∀ b, s.waits b → b = a
  | .finish c _ => c = 0
  | _ => False

/-- Histories in which promise 0 of coroutine 0 is awaited, the coroutine ends, and awaits
are interrupted, any number of times in any order; not interrupted is an await that has
ended while another one waits (see `C25_violated`). -/
def Ints : St → List Ev → Prop
  | _, [] => True
  | s, e :: es => s.can e = true ∧ s.plain e ∧ Ints (s.step e) es

/-- How the coroutine ended, if it did. -/
def outcome : List Ev → Option Out
  | [] => none
  | .finish _ o :: _ => some o
  | _ :: es => outcome es

/-- Helper: what holds in such histories. -/
structure SI (s : St) (o : Option Out) : Prop where
  ub : s.ub = false
  kill : s.killed = []
  selfs : ∀ a w, s.aw a = some w → w.self = 0
  run : o = none → s.frame 0 = some { receiver := some 0 } ∧
    ∃ R, s.recv 0 = some R ∧ R.done = false ∧ R.exc = none ∧ R.result = none ∧
      ∀ a, R.awaited = some a → s.aw a = some { self := 0 }
  val : ∀ v, o = some (.val v) → s.frame 0 = none ∧
    ∃ R, s.recv 0 = some R ∧ R.done = true ∧ R.exc = none ∧ R.awaited = none ∧
      (R.result = some (some v) ∨ (R.result = some none ∧ ∃ b, (b, .val v) ∈ s.log))
  exc : ∀ e, o = some (.exc e) → s.frame 0 = none ∧
    ∃ R, s.recv 0 = some R ∧ R.done = true ∧ R.exc = some (.user e) ∧ R.awaited = none

theorem SI.init : SI (St.run [.create 0 0]) none := by
  constructor <;> simp [St.run, St.steps, St.step, St.can]

theorem SI.step {s : St} {o : Option Out} (h : SI s o) {e : Ev} (hc : s.can e = true)
    (he : s.plain e) :
    SI (s.step e) (match o with | some x => some x | none => outcome [e]) := by
  have hu := h.ub
  have hk := h.kill
  unfold St.step
  rw [if_neg (by simp [hu, hc])]
  cases e with
  | await a r =>
    simp only [St.plain] at he
    subst he
    simp only [outcome]
    simp only [St.can, Bool.and_eq_true, Option.isNone_iff_eq_none] at hc
    have hs := h.selfs
    cases o with
    | none =>
      obtain ⟨h1, R, h2, h3, h4, h5, h6⟩ := h.run rfl
      simp only [St.await, h2, h3, Bool.false_eq_true, if_false]
      cases ha : R.awaited with
      | none =>
        simp only [ne_eq, not_true_eq_false, if_false]
        constructor <;> simp_all <;> grind
      | some b =>
        have := h6 b ha
        have hab : b ≠ a := by grind
        simp only [ne_eq, reduceCtorEq, not_false_eq_true, if_true, St.resumeAw, upd_apply]
        constructor <;> simp_all <;> grind
    | some o =>
      cases o with
      | val v =>
        obtain ⟨h1, R, h2, h3, h4, h5, h6⟩ := h.val v rfl
        simp only [St.await, h2, h3, if_true, St.resumeAw, upd_apply]
        rcases h6 with h6 | ⟨h6, b, h7⟩
        · simp only [St.getResult, h4, h6]
          constructor <;> simp_all <;> grind
        · simp only [St.getResult, h4, h6]
          constructor <;> simp_all <;> grind
      | exc x =>
        obtain ⟨h1, R, h2, h3, h4, h5⟩ := h.exc x rfl
        simp only [St.await, h2, h3, if_true, St.resumeAw, upd_apply, St.getResult, h4]
        constructor <;> simp_all <;> grind
  | interrupt a =>
    simp only [outcome]
    have hs := h.selfs
    simp only [St.can] at hc
    cases hw : s.aw a with
    | none => simp [hw] at hc
    | some w =>
      have hw0 := hs a w hw
      cases o with
      | none =>
        obtain ⟨h1, R, h2, h3, h4, h5, h6⟩ := h.run rfl
        simp only [St.interrupt, hw, hw0, h2]
        cases ha : R.awaited with
        | none => constructor <;> simp_all <;> grind
        | some b =>
          have hab := he b ⟨R, h2, ha⟩
          subst hab
          simp only [St.resumeAw, upd_apply, if_true]
          constructor <;> simp_all <;> grind
      | some o =>
        cases o with
        | val v =>
          obtain ⟨h1, R, h2, h3, h4, h5, h6⟩ := h.val v rfl
          simp only [St.interrupt, hw, hw0, h2, h5]
          constructor <;> simp_all <;> grind
        | exc x =>
          obtain ⟨h1, R, h2, h3, h4, h5⟩ := h.exc x rfl
          simp only [St.interrupt, hw, hw0, h2, h5]
          constructor <;> simp_all <;> grind
  | finish c x =>
    simp only [St.plain] at he
    subst he
    have hs := h.selfs
    cases o with
    | some o =>
      cases o with
      | val v => have := (h.val v rfl).1; simp [St.can, this] at hc
      | exc v => have := (h.exc v rfl).1; simp [St.can, this] at hc
    | none =>
      obtain ⟨h1, R, h2, h3, h4, h5, h6⟩ := h.run rfl
      simp only [outcome, St.finish, h1, h2]
      cases x with
      | val v =>
        simp only
        cases ha : R.awaited with
        | none => constructor <;> simp_all <;> exact hs
        | some b =>
          have := h6 b ha
          simp only [St.resumeAw, this, upd_apply, if_true, St.getResult, h4]
          constructor <;> simp_all <;> grind
      | exc v =>
        simp only
        cases ha : R.awaited with
        | none => constructor <;> simp_all <;> exact hs
        | some b =>
          have := h6 b ha
          simp only [St.resumeAw, this, upd_apply, if_true, St.getResult]
          constructor <;> simp_all <;> grind
  | _ => exact he.elim

theorem SI.steps {es : List Ev} : ∀ {s : St} {o : Option Out}, SI s o → Ints s es →
    SI (s.steps es) (match o with | some x => some x | none => outcome es) := by
  induction es with
  | nil => intro s o h _; cases o <;> exact h
  | cons e es ih =>
    intro s o h hi
    have := ih (h.step hi.1 hi.2.1) hi.2.2
    cases o with
    | some o => exact this
    | none =>
      cases e <;> exact this

/-- **C26**, in full: in every history of awaits and interruptions of a promise, before and
after its coroutine ends, nothing undefined happens; interrupting the await that waits ends it
with `detached` and leaves the coroutine, its other state and what was sent to it alone; if the
coroutine goes on, an await when nobody waits gets the outcome as soon as there is one; and if
it has ended an await gets the outcome at once, unless it is a value and an earlier await got
it. -/
theorem C26 (es : List Ev) (h : Ints (St.run [.create 0 0]) es) :
    (St.run (.create 0 0 :: es)).ub = false ∧
    (∀ a, (St.run (.create 0 0 :: es)).waits a →
      (St.run (.create 0 0 :: es ++ [.interrupt a])).log =
        (a, .err .detached) :: (St.run (.create 0 0 :: es)).log ∧
      (St.run (.create 0 0 :: es ++ [.interrupt a])).frame = (St.run (.create 0 0 :: es)).frame ∧
      (St.run (.create 0 0 :: es ++ [.interrupt a])).signals = (St.run (.create 0 0 :: es)).signals ∧
      ∀ b, ¬ (St.run (.create 0 0 :: es ++ [.interrupt a])).waits b) ∧
    (∀ a o, outcome es = none → (∀ b, ¬ (St.run (.create 0 0 :: es)).waits b) →
      (St.run (.create 0 0 :: es)).aw a = none →
      (St.run (.create 0 0 :: es ++ [.await a 0, .finish 0 o])).log =
        (a, exact o) :: (St.run (.create 0 0 :: es)).log) ∧
    (∀ a o, outcome es = some o → (St.run (.create 0 0 :: es)).aw a = none →
      (St.run (.create 0 0 :: es ++ [.await a 0])).log = (a, exact o) :: (St.run (.create 0 0 :: es)).log ∨
      ((St.run (.create 0 0 :: es ++ [.await a 0])).log = (a, .moved) :: (St.run (.create 0 0 :: es)).log ∧
        ∃ v b, o = .val v ∧ (b, .val v) ∈ (St.run (.create 0 0 :: es)).log)) := by
  have hr : ∀ l, St.run (.create 0 0 :: es ++ l) = (St.run (.create 0 0 :: es)).steps l := by
    intro l; simp [St.run, St.steps]
  have i : SI (St.run (.create 0 0 :: es)) (outcome es) := SI.steps SI.init h
  simp only [hr]
  generalize St.run (.create 0 0 :: es) = s at *
  refine ⟨i.ub, ?_, ?_, ?_⟩
  · rintro a ⟨R, hR, ha⟩
    cases ho : outcome es with
    | some o =>
      cases o with
      | val v => obtain ⟨-, R', h2, -, -, h5, -⟩ := i.val v ho; grind
      | exc v => obtain ⟨-, R', h2, -, -, h5⟩ := i.exc v ho; grind
    | none =>
      obtain ⟨h1, R', h2, h3, h4, h5, h6⟩ := i.run ho
      have hRR : R' = R := by grind
      subst hRR
      have hw := h6 a ha
      have hc : s.can (.interrupt a) = true := by simp [St.can, hw, h2, i.kill]
      obtain ⟨g1, g2, g3, g4, g5, g6⟩ := C26_interrupt hw rfl h2 ha i.ub hc
      refine ⟨g1, g2, g3, ?_⟩
      rintro b ⟨R2, hR2, hb⟩
      have : (s.step (.interrupt a)).recv 0 = some R2 := hR2
      rw [g5] at this
      simp at this
      subst this
      simp at hb
  · intro a o ho hn ha
    obtain ⟨h1, R, h2, h3, h4, h5, h6⟩ := i.run ho
    have hw : R.awaited = none := by
      cases hw : R.awaited with
      | none => rfl
      | some b => exact absurd ⟨R, h2, hw⟩ (hn b)
    have e1 : s.step (.await a 0) = { s with
        aw := upd s.aw a (some { self := 0 }), recv := upd s.recv 0 (some { R with awaited := some a }) } := by
      simp [St.step, i.ub, St.can, ha, h2, St.await, h3, hw]
    simp only [St.steps, List.foldl_cons, List.foldl_nil, e1]
    unfold St.step
    rw [if_neg (by simp [i.ub, St.can, h1])]
    cases o <;> simp [St.finish, h1, St.resumeAw, St.getResult, exact, h4]
  · intro a o ho ha
    cases o with
    | val v =>
      obtain ⟨h1, R, h2, h3, h4, h5, h6⟩ := i.val v ho
      simp only [St.steps, List.foldl_cons, List.foldl_nil]
      unfold St.step
      rw [if_neg (by simp [i.ub, St.can, ha, h2])]
      rcases h6 with h6 | ⟨h6, b, hb⟩
      · left; simp [St.await, h2, h3, St.resumeAw, St.getResult, h4, h6, exact]
      · right
        refine ⟨?_, v, b, rfl, hb⟩
        simp [St.await, h2, h3, St.resumeAw, St.getResult, h4, h6]
    | exc v =>
      obtain ⟨h1, R, h2, h3, h4, h5⟩ := i.exc v ho
      left
      simp only [St.steps, List.foldl_cons, List.foldl_nil]
      unfold St.step
      rw [if_neg (by simp [i.ub, St.can, ha, h2])]
      simp [St.await, h2, h3, St.resumeAw, St.getResult, h4, exact]

/-- Await 0 is interrupted, await 1 waits, await 2 comes too often, await 1 is interrupted, await
3 waits. -/
def ints : List Ev := [.await 0 0, .interrupt 0, .await 1 0, .await 2 0, .interrupt 1, .await 3 0]

theorem waits_unique {s : St} {a : Nat} (h : (s.recv 0).bind (·.awaited) = some a ∨ (s.recv 0).bind (·.awaited) = none)
    (b : Nat) (hb : s.waits b) : b = a := by
  obtain ⟨R, h1, h2⟩ := hb
  simp [h1, h2] at h
  exact h

example : Ints (St.run [.create 0 0]) ints ∧ (St.run (.create 0 0 :: ints)).waits 3 ∧
    Ints (St.run [.create 0 0]) (ints ++ [.finish 0 (.val 4), .interrupt 0]) ∧
    outcome (ints ++ [.finish 0 (.val 4), .interrupt 0]) = some (.val 4) := by
  refine ⟨?_, ⟨_, rfl, rfl⟩, ?_, rfl⟩
  · refine ⟨by decide, rfl, by decide, waits_unique (by decide), by decide, rfl, by decide, rfl, by decide,
      waits_unique (by decide), by decide, rfl, trivial⟩
  · refine ⟨by decide, rfl, by decide, waits_unique (by decide), by decide, rfl, by decide, rfl, by decide,
      waits_unique (by decide), by decide, rfl, by decide, rfl, by decide, waits_unique (by decide), trivial⟩

end Cobalt.Prom
