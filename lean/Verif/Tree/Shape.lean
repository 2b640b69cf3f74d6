import Verif.Tree.Spec
/-! Helper: what a frame and its promise look like. -/
namespace Cobalt.Tree
open Prom (Out Got Rec Frame Aw upd)

/-- The stages of a coroutine. -/
inductive Ph where
  | unborn
  /-- it runs -/
  | runs
  /-- it runs and is awaited -/
  | awaited (a : Nat)
  /-- it runs and its promise is destroyed -/
  | orphan
  /-- it has ended and was not awaited yet -/
  | over (o : Out)
  /-- it has ended and an await too -/
  | taken (o : Out)
  /-- it has ended and its promise is destroyed -/
  | gone
  /-- its exception has left it after its promise was destroyed -/
  | stuck
deriving DecidableEq, Repr

def full : Out → Rec → Rec
  | .val v, R => { R with result := some (some v), done := true }
  | .exc e, R => { R with exc := some (.user e), done := true }

def empty : Out → Rec → Rec
  | .val _, R => { R with result := some none, done := true, taken := true }
  | .exc e, R => { R with exc := some (.user e), done := true, taken := true }

def got : Out → Got
  | .val v => .val v
  | .exc e => .err (.user e)

def again : Out → Got
  | .val _ => .moved
  | .exc e => .err (.user e)

def base (c : Nat) : Rec := { ref := some c, attached := true }

def recOf (c : Nat) : Ph → Option Rec
  | .runs => some (base c)
  | .awaited a => some { base c with awaited := some a }
  | .over o => some (full o (base c))
  | .taken o => some (empty o (base c))
  | _ => none

def frameOf (c : Nat) : Ph → Option Frame
  | .runs | .awaited _ => some { receiver := some c }
  | .orphan => some { receiver := none }
  | .stuck => some { receiver := none, stuck := true }
  | _ => none

/-- All looks as it should; the awaits have numbers below `n`. -/
structure PS (t : Prom.St) (n : Nat) (ph : Nat → Ph) : Prop where
  recv : ∀ c, t.recv c = recOf c (ph c)
  frame : ∀ c, t.frame c = frameOf c (ph c)
  fresh : ∀ a, n ≤ a → t.aw a = none
  cur : ∀ c a, ph c = .awaited a → t.aw a = some { self := c }
  born : ∀ c, t.born c = true ↔ ph c ≠ .unborn
  ub : t.ub = false
  killed : t.killed = []
  leaving : ∀ c, t.leaving c = false

theorem upd_same {α : Type} (f : Nat → α) (i : Nat) (x : α) : upd f i x i = x := by simp
theorem upd_diff {α : Type} (f : Nat → α) {i j : Nat} (x : α) (h : j ≠ i) : upd f i x j = f j := by simp [h]

theorem upd_over {α : Type} (f : Nat → α) (i : Nat) (x y : α) : upd (upd f i x) i y = upd f i y := by
  funext j; simp only [Prom.upd_apply]; split <;> rfl

theorem upd_id {α : Type} (f : Nat → α) (i : Nat) (x : α) (h : f i = x) : f = upd f i x := by
  funext j; simp only [Prom.upd_apply]; split
  · subst_vars; rfl
  · rfl

/-- Only what belongs to `c` changes. -/
theorem PS.upd {t t' : Prom.St} {n n' : Nat} {ph : Nat → Ph} (h : PS t n ph) {c : Nat} {q : Ph}
    (h1 : t'.recv = Prom.upd t.recv c (recOf c q)) (h2 : t'.frame = Prom.upd t.frame c (frameOf c q))
    (h3 : ∀ a, n' ≤ a → t'.aw a = none) (h3' : ∀ d a, d ≠ c → ph d = .awaited a → t'.aw a = t.aw a)
    (h3'' : ∀ a, q = .awaited a → t'.aw a = some { self := c })
    (h4 : t'.born = t.born ∨ t'.born = Prom.upd t.born c true)
    (h4' : q ≠ .unborn) (hb : t'.born c = true)
    (h5 : t'.ub = false) (h6 : t'.killed = []) (h8 : t'.leaving = t.leaving) :
    PS t' n' (Prom.upd ph c q) := by
  refine ⟨fun d => ?_, fun d => ?_, h3, fun d a hd => ?_, fun d => ?_, h5, h6, by rw [h8]; exact h.leaving⟩
  · rw [h1]; simp only [Prom.upd_apply]; split
    · subst_vars; rfl
    · exact h.recv d
  · rw [h2]; simp only [Prom.upd_apply]; split
    · subst_vars; rfl
    · exact h.frame d
  · by_cases e : d = c
    · subst e; rw [upd_same] at hd; exact h3'' a hd
    · rw [upd_diff _ _ e] at hd
      rw [h3' d a e hd]; exact h.cur d a hd
  · by_cases hd : d = c
    · subst hd; simp [hb, h4']
    · rw [upd_diff _ _ hd, ← h.born d]
      rcases h4 with e | e
      · rw [e]
      · rw [e, upd_diff _ _ hd]

section
variable {t : Prom.St} {n : Nat} {ph : Nat → Ph}

theorem PS.lt (h : PS t n ph) {c a : Nat} (hc : ph c = .awaited a) : a < n := by
  apply Classical.byContradiction
  intro hn
  have := h.fresh a (Nat.not_lt.1 hn)
  rw [h.cur c a hc] at this
  cases this

/-- Two coroutines are not awaited by the same await. -/
theorem PS.inj (h : PS t n ph) {c d a : Nat} (hc : ph c = .awaited a) (hd : ph d = .awaited a) : c = d := by
  have h1 := h.cur c a hc
  rw [h.cur d a hd] at h1
  injection h1 with h1
  injection h1 with h1
  exact h1.symm

theorem PS.bornT (h : PS t n ph) {c : Nat} (hc : ph c ≠ .unborn) : t.born c = true := (h.born c).2 hc

theorem PS.create (h : PS t n ph) {c : Nat} (hc : ph c = .unborn) :
    PS (t.step (.create c c)) n (Prom.upd ph c .runs) ∧ (t.step (.create c c)).signals = t.signals := by
  have hb : t.born c = false := by
    cases e : t.born c with
    | false => rfl
    | true => exact absurd hc ((h.born c).1 e)
  have hr : t.recv c = none := by rw [h.recv, hc]; rfl
  have e : t.step (.create c c) = { t with
      born := Prom.upd t.born c true, frame := Prom.upd t.frame c (some { receiver := some c })
      recv := Prom.upd t.recv c (some { ref := some c, attached := true }) } := by
    simp [Prom.St.step, h.ub, Prom.St.can, hb, hr]
  rw [e]
  exact ⟨h.upd rfl rfl h.fresh (fun _ _ _ _ => rfl) (fun _ hq => by cases hq) (.inr rfl) (by simp) (upd_same _ _ _) h.ub
    h.killed rfl, rfl⟩

theorem PS.await_runs (h : PS t n ph) {c : Nat} (hc : ph c = .runs) :
    PS (t.step (.await n c)) (n + 1) (Prom.upd ph c (.awaited n)) := by
  have hr : t.recv c = some (base c) := by rw [h.recv, hc]; rfl
  have ha : t.aw n = none := h.fresh n (Nat.le_refl n)
  have hf : t.frame c = some { receiver := some c } := by rw [h.frame, hc]; rfl
  have e : t.step (.await n c) = { t with
      aw := Prom.upd t.aw n (some { self := c }), recv := Prom.upd t.recv c (some { base c with awaited := some n }) } := by
    simp [Prom.St.step, h.ub, Prom.St.can, hr, ha, Prom.St.await, base]
  rw [e]
  refine h.upd rfl (upd_id _ _ _ hf) (fun a hn => ?_) (fun d a _ hd => ?_) (fun a hq => ?_) (.inl rfl) (by simp)
    (h.bornT (by rw [hc]; simp)) h.ub h.killed rfl
  · dsimp only; rw [upd_diff _ _ (by omega)]; exact h.fresh a (by omega)
  · have := h.lt hd
    dsimp only; rw [upd_diff _ _ (by omega)]
  · cases hq; exact upd_same _ _ _

/-- The await of a promise that is ready ends at once. -/
theorem PS.await_over (h : PS t n ph) {c : Nat} {o : Out} (hc : ph c = .over o) :
    PS (t.step (.await n c)) (n + 1) (Prom.upd ph c (.taken o)) ∧
    (t.step (.await n c)).aw n = some { self := c, got := some (got o) } := by
  have hr : t.recv c = some (full o (base c)) := by rw [h.recv, hc]; rfl
  have ha : t.aw n = none := h.fresh n (Nat.le_refl n)
  have hf : t.frame c = none := by rw [h.frame, hc]; rfl
  have e : t.step (.await n c) = { t with
      aw := Prom.upd t.aw n (some { self := c, got := some (got o) }), recv := Prom.upd t.recv c (some (empty o (base c)))
      log := (n, got o) :: t.log } := by
    cases o <;>
    simp [Prom.St.step, h.ub, Prom.St.can, hr, ha, Prom.St.await, base, full, empty, got, Prom.St.resumeAw,
      Prom.St.getResult, upd_over]
  rw [e]
  refine ⟨h.upd rfl (upd_id _ _ _ hf) (fun a hn => ?_) (fun d a _ hd => ?_) (fun a hq => by cases hq) (.inl rfl) (by simp)
    (h.bornT (by rw [hc]; simp)) h.ub h.killed rfl, upd_same _ _ _⟩
  · dsimp only; rw [upd_diff _ _ (by omega)]; exact h.fresh a (by omega)
  · have := h.lt hd
    dsimp only; rw [upd_diff _ _ (by omega)]

theorem PS.await_taken (h : PS t n ph) {c : Nat} {o : Out} (hc : ph c = .taken o) :
    PS (t.step (.await n c)) (n + 1) ph ∧ (t.step (.await n c)).aw n = some { self := c, got := some (again o) } := by
  have hr : t.recv c = some (empty o (base c)) := by rw [h.recv, hc]; rfl
  have ha : t.aw n = none := h.fresh n (Nat.le_refl n)
  have hf : t.frame c = none := by rw [h.frame, hc]; rfl
  have e : t.step (.await n c) = { t with
      aw := Prom.upd t.aw n (some { self := c, got := some (again o) })
      recv := Prom.upd t.recv c (some (empty o (base c))), log := (n, again o) :: t.log } := by
    cases o <;>
    simp [Prom.St.step, h.ub, Prom.St.can, hr, ha, Prom.St.await, base, empty, again, Prom.St.resumeAw,
      Prom.St.getResult, upd_over]
  rw [e]
  refine ⟨?_, upd_same _ _ _⟩
  rw [upd_id ph c _ hc]
  refine h.upd rfl (upd_id _ _ _ hf) (fun a hn => ?_) (fun d a _ hd => ?_) (fun a hq => by cases hq) (.inl rfl) (by simp)
    (h.bornT (by rw [hc]; simp)) h.ub h.killed rfl
  · dsimp only; rw [upd_diff _ _ (by omega)]; exact h.fresh a (by omega)
  · have := h.lt hd
    dsimp only; rw [upd_diff _ _ (by omega)]

theorem PS.finish_runs (h : PS t n ph) {c : Nat} (o : Out) (hc : ph c = .runs) :
    PS (t.step (.finish c o)) n (Prom.upd ph c (.over o)) := by
  have hr : t.recv c = some (base c) := by rw [h.recv, hc]; rfl
  have hf : t.frame c = some { receiver := some c } := by rw [h.frame, hc]; rfl
  have e : t.step (.finish c o) = { t with
      frame := Prom.upd t.frame c none, recv := Prom.upd t.recv c (some (full o (base c))) } := by
    cases o <;> simp [Prom.St.step, h.ub, Prom.St.can, hr, hf, Prom.St.finish, base, full]
  rw [e]
  exact h.upd rfl rfl h.fresh (fun _ _ _ _ => rfl) (fun a hq => by cases hq) (.inl rfl) (by simp)
    (h.bornT (by rw [hc]; simp)) h.ub h.killed rfl

theorem PS.finish_awaited (h : PS t n ph) {c a : Nat} (o : Out) (hc : ph c = .awaited a) :
    PS (t.step (.finish c o)) n (Prom.upd ph c (.taken o)) ∧
    (t.step (.finish c o)).aw a = some { self := c, got := some (got o) } := by
  have hr : t.recv c = some { base c with awaited := some a } := by rw [h.recv, hc]; rfl
  have ha : t.aw a = some { self := c } := h.cur c a hc
  have hf : t.frame c = some { receiver := some c } := by rw [h.frame, hc]; rfl
  have e : t.step (.finish c o) = { t with
      frame := Prom.upd t.frame c none, recv := Prom.upd t.recv c (some (empty o (base c)))
      aw := Prom.upd t.aw a (some { self := c, got := some (got o) }), log := (a, got o) :: t.log } := by
    cases o <;>
    simp [Prom.St.step, h.ub, Prom.St.can, hr, hf, Prom.St.finish, base, empty, got, Prom.St.resumeAw, ha,
      Prom.St.getResult, upd_over]
  rw [e]
  have hn := h.lt hc
  refine ⟨h.upd rfl rfl (fun b hb => ?_) (fun d b hd hb => ?_) (fun b hq => by cases hq) (.inl rfl) (by simp)
    (h.bornT (by rw [hc]; simp)) h.ub h.killed rfl, upd_same _ _ _⟩
  · dsimp only; rw [upd_diff _ _ (by omega)]; exact h.fresh b hb
  · dsimp only; rw [upd_diff _ _ (fun e => hd (by subst e; exact h.inj hb hc))]

/-- How a coroutine ends whose promise is destroyed. -/
def lostPh : Out → Ph
  | .val _ => .gone
  | .exc _ => .stuck

theorem PS.finish_orphan (h : PS t n ph) {c : Nat} (o : Out) (hc : ph c = .orphan) :
    PS (t.step (.finish c o)) n (Prom.upd ph c (lostPh o)) := by
  have hr : t.recv c = none := by rw [h.recv, hc]; rfl
  have hf : t.frame c = some { receiver := none } := by rw [h.frame, hc]; rfl
  have e : t.step (.finish c o) = { t with frame := Prom.upd t.frame c (frameOf c (lostPh o)) } := by
    cases o <;> simp [Prom.St.step, h.ub, Prom.St.can, hf, Prom.St.finish, frameOf, lostPh]
  rw [e]
  have e2 : recOf c (lostPh o) = none := by cases o <;> rfl
  exact h.upd (by rw [e2]; exact upd_id _ _ _ hr) rfl h.fresh (fun _ _ _ _ => rfl) (fun a hq => by cases o <;> cases hq)
    (.inl rfl) (by cases o <;> simp [lostPh]) (h.bornT (by rw [hc]; simp)) h.ub h.killed rfl

/-- What becomes of a stage when the promise is destroyed. -/
def dropPh : Ph → Ph
  | .runs => .orphan
  | .over _ | .taken _ => .gone
  | q => q

/-- The promise of a coroutine that runs is destroyed. -/
theorem PS.drop_runs (h : PS t n ph) {c : Nat} (hc : ph c = .runs) :
    PS ((t.step (.leave c)).step (.drop c)) n (Prom.upd ph c .orphan) ∧
    (t.step (.leave c)).signals c = t.signals c + 1 := by
  have hr : t.recv c = some (base c) := by rw [h.recv, hc]; rfl
  have hf : t.frame c = some { receiver := some c } := by rw [h.frame, hc]; rfl
  have hl := h.leaving c
  have e1 : t.step (.leave c) = { t with
      leaving := Prom.upd t.leaving c true, signals := Prom.upd t.signals c (t.signals c + 1) } := by
    simp [Prom.St.step, h.ub, Prom.St.can, hr, Prom.St.leave, base, Prom.St.cancel, hf]
  have e : (t.step (.leave c)).step (.drop c) = { t with
      recv := Prom.upd t.recv c none, frame := Prom.upd t.frame c (some { receiver := none })
      signals := Prom.upd t.signals c (t.signals c + 1) } := by
    rw [e1]
    simp [Prom.St.step, h.ub, Prom.St.can, hr, Prom.St.destroyRec, base, upd_over, hf, ← upd_id _ _ _ hl]
  rw [e]
  refine ⟨h.upd rfl rfl h.fresh (fun _ _ _ _ => rfl) (fun a hq => by cases hq) (.inl rfl) (by simp)
    (h.bornT (by rw [hc]; simp)) h.ub h.killed rfl, ?_⟩
  rw [e1]; exact upd_same _ _ _

/-- The promise of a coroutine that has ended is destroyed. -/
theorem PS.drop_done (h : PS t n ph) {c : Nat} {o : Out} (hc : ph c = .over o ∨ ph c = .taken o) :
    PS ((t.step (.leave c)).step (.drop c)) n (Prom.upd ph c .gone) ∧
    (t.step (.leave c)).signals c = t.signals c := by
  obtain ⟨R, hr, hd, ha, hat⟩ : ∃ R, t.recv c = some R ∧ R.done = true ∧ R.awaited = none ∧ R.attached = true := by
    rw [h.recv]
    rcases hc with hc | hc <;> rw [hc] <;> cases o <;> exact ⟨_, rfl, rfl, rfl, rfl⟩
  have hf : t.frame c = none := by rw [h.frame]; rcases hc with hc | hc <;> rw [hc] <;> rfl
  have hl := h.leaving c
  have e1 : t.step (.leave c) = { t with leaving := Prom.upd t.leaving c true } := by
    simp [Prom.St.step, h.ub, Prom.St.can, hr, Prom.St.leave, Prom.St.cancel, hd, hat]
  have e : (t.step (.leave c)).step (.drop c) = { t with recv := Prom.upd t.recv c none } := by
    rw [e1]
    simp [Prom.St.step, h.ub, Prom.St.can, hr, Prom.St.destroyRec, hd, ha, upd_over, ← upd_id _ _ _ hl]
  rw [e]
  have hu : ph c ≠ .unborn := by rcases hc with hc | hc <;> rw [hc] <;> simp
  refine ⟨h.upd rfl (upd_id _ _ _ hf) h.fresh (fun _ _ _ _ => rfl) (fun a hq => by cases hq) (.inl rfl) (by simp)
    (h.bornT hu) h.ub h.killed rfl, ?_⟩
  rw [e1]

/-- There is no promise to destroy. -/
theorem PS.drop_none (h : PS t n ph) {c : Nat} (hc : recOf c (ph c) = none) : t.step (.leave c) = t ∧ t.step (.drop c) = t ∧
    t.step (.cancel c) = t := by
  have hr : t.recv c = none := by rw [h.recv, hc]
  refine ⟨?_, ?_, ?_⟩ <;> simp [Prom.St.step, Prom.St.can, hr]

theorem PS.cancel_runs (h : PS t n ph) {c : Nat} (hc : ph c = .runs) :
    PS (t.step (.cancel c)) n ph ∧ (t.step (.cancel c)).signals c = t.signals c + 1 := by
  have hr : t.recv c = some (base c) := by rw [h.recv, hc]; rfl
  have hf : t.frame c = some { receiver := some c } := by rw [h.frame, hc]; rfl
  have e1 : t.step (.cancel c) = { t with signals := Prom.upd t.signals c (t.signals c + 1) } := by
    simp [Prom.St.step, h.ub, Prom.St.can, hr, base, Prom.St.cancel, hf]
  rw [e1]
  exact ⟨⟨h.recv, h.frame, h.fresh, h.cur, h.born, h.ub, h.killed, h.leaving⟩, upd_same _ _ _⟩

theorem PS.cancel_done (h : PS t n ph) {c : Nat} {o : Out} (hc : ph c = .over o ∨ ph c = .taken o) :
    t.step (.cancel c) = t := by
  obtain ⟨R, hr, hd⟩ : ∃ R, t.recv c = some R ∧ R.done = true := by
    rw [h.recv]
    rcases hc with hc | hc <;> rw [hc] <;> cases o <;> exact ⟨_, rfl, rfl⟩
  simp [Prom.St.step, h.ub, Prom.St.can, hr, Prom.St.cancel, hd]

end
end Cobalt.Tree
