import Verif.Fork.Spec
/-! Helper: what a frame, its promise and the await of that promise look like. -/
namespace Cobalt.Fork
open Prom (Out Got Rec Frame Aw upd)

/-- The stages of a coroutine. -/
inductive Ph where
  | unborn
  /-- it runs -/
  | runs
  /-- it runs and is awaited -/
  | awaited
  /-- it has ended and was not awaited yet -/
  | over (o : Out)
  /-- it has ended and the await too -/
  | taken (o : Out)
  /-- and the promise is destroyed -/
  | gone (o : Out)
deriving DecidableEq, Repr

def full : Out → Rec → Rec
  | .val v, R => { R with result := some (some v), done := true }
  | .exc e, R => { R with exc := some (.user e), done := true }

def empty : Out → Rec → Rec
  | .val _, R => { R with result := some none, done := true, taken := true }
  | .exc e, R => { R with exc := some (.user e), done := true, taken := true }

def got : Out → Got
  | .val v => .val v
  | .exc e => .err (.user e)

theorem ofGot_got (o : Out) : ofGot (got o) = ofOut o := by cases o <;> rfl

def base (c : Nat) : Rec := { ref := some c, attached := true }

def recOf (c : Nat) : Ph → Option Rec
  | .unborn => none
  | .runs => some (base c)
  | .awaited => some { base c with awaited := some c }
  | .over o => some (full o (base c))
  | .taken o => some (empty o (base c))
  | .gone _ => none

def frameOf (c : Nat) : Ph → Option Frame
  | .runs | .awaited => some { receiver := some c }
  | _ => none

def awOf (c : Nat) : Ph → Option Aw
  | .awaited => some { self := c }
  | .taken o | .gone o => some { self := c, got := some (got o) }
  | _ => none

/-- All looks as it should. -/
structure PS (t : Prom.St) (ph : Nat → Ph) : Prop where
  recv : ∀ c, t.recv c = recOf c (ph c)
  frame : ∀ c, t.frame c = frameOf c (ph c)
  aw : ∀ c, t.aw c = awOf c (ph c)
  born : ∀ c, t.born c = true ↔ ph c ≠ .unborn
  ub : t.ub = false
  killed : t.killed = []
  signals : ∀ c, t.signals c = 0
  leaving : ∀ c, t.leaving c = false

theorem upd_same {α : Type} (f : Nat → α) (i : Nat) (x : α) : upd f i x i = x := by simp
theorem upd_diff {α : Type} (f : Nat → α) {i j : Nat} (x : α) (h : j ≠ i) : upd f i x j = f j := by simp [h]

theorem upd_over {α : Type} (f : Nat → α) (i : Nat) (x y : α) : upd (upd f i x) i y = upd f i y := by
  funext j; simp only [Prom.upd_apply]; split <;> rfl

/-- Only what belongs to `c` changes. -/
theorem PS.upd {t t' : Prom.St} {ph : Nat → Ph} (h : PS t ph) {c : Nat} {q : Ph}
    (h1 : t'.recv = Prom.upd t.recv c (recOf c q)) (h2 : t'.frame = Prom.upd t.frame c (frameOf c q))
    (h3 : t'.aw = Prom.upd t.aw c (awOf c q)) (h4 : t'.born = t.born ∨ t'.born = Prom.upd t.born c true)
    (h4' : q ≠ .unborn) (hb : t'.born c = true)
    (h5 : t'.ub = false) (h6 : t'.killed = []) (h7 : t'.signals = t.signals) (h8 : t'.leaving = t.leaving) :
    PS t' (Prom.upd ph c q) := by
  refine ⟨fun d => ?_, fun d => ?_, fun d => ?_, fun d => ?_, h5, h6, by rw [h7]; exact h.signals, by
    rw [h8]; exact h.leaving⟩
  · rw [h1]; simp only [Prom.upd_apply]; split
    · subst_vars; rfl
    · exact h.recv d
  · rw [h2]; simp only [Prom.upd_apply]; split
    · subst_vars; rfl
    · exact h.frame d
  · rw [h3]; simp only [Prom.upd_apply]; split
    · subst_vars; rfl
    · exact h.aw d
  · by_cases hd : d = c
    · subst hd; simp [hb, h4']
    · rw [upd_diff _ _ hd, ← h.born d]
      rcases h4 with e | e
      · rw [e]
      · rw [e, upd_diff _ _ hd]

theorem upd_id {α : Type} (f : Nat → α) (i : Nat) (x : α) (h : f i = x) : f = upd f i x := by
  funext j; simp only [Prom.upd_apply]; split
  · subst_vars; rfl
  · rfl

theorem PS.create {t : Prom.St} {ph : Nat → Ph} (h : PS t ph) {c : Nat} (hc : ph c = .unborn) :
    PS (t.step (.create c c)) (Prom.upd ph c .runs) := by
  have hb : t.born c = false := by
    cases e : t.born c with
    | false => rfl
    | true => exact absurd hc ((h.born c).1 e)
  have hr : t.recv c = none := by rw [h.recv, hc]; rfl
  have ha : t.aw c = none := by rw [h.aw, hc]; rfl
  have e : t.step (.create c c) = { t with
      born := Prom.upd t.born c true, frame := Prom.upd t.frame c (some { receiver := some c })
      recv := Prom.upd t.recv c (some { ref := some c, attached := true }) } := by
    simp [Prom.St.step, h.ub, Prom.St.can, hb, hr]
  rw [e]
  exact h.upd rfl rfl (upd_id _ _ _ ha) (.inr rfl) (by simp) (upd_same _ _ _) h.ub h.killed rfl rfl

theorem bornT {t : Prom.St} {ph : Nat → Ph} (h : PS t ph) {c : Nat} (hc : ph c ≠ .unborn) : t.born c = true :=
  (h.born c).2 hc

theorem PS.await_runs {t : Prom.St} {ph : Nat → Ph} (h : PS t ph) {c : Nat} (hc : ph c = .runs) :
    PS (t.step (.await c c)) (Prom.upd ph c .awaited) := by
  have hr : t.recv c = some (base c) := by rw [h.recv, hc]; rfl
  have ha : t.aw c = none := by rw [h.aw, hc]; rfl
  have hf : t.frame c = some { receiver := some c } := by rw [h.frame, hc]; rfl
  have e : t.step (.await c c) = { t with
      aw := Prom.upd t.aw c (some { self := c }), recv := Prom.upd t.recv c (some { base c with awaited := some c }) } := by
    simp [Prom.St.step, h.ub, Prom.St.can, hr, ha, Prom.St.await, base]
  rw [e]
  exact h.upd rfl (upd_id _ _ _ hf) rfl (.inl rfl) (by simp) (bornT h (by rw [hc]; simp)) h.ub h.killed rfl rfl

theorem PS.await_over {t : Prom.St} {ph : Nat → Ph} (h : PS t ph) {c : Nat} {o : Out} (hc : ph c = .over o) :
    PS (t.step (.await c c)) (Prom.upd ph c (.taken o)) := by
  have hr : t.recv c = some (full o (base c)) := by rw [h.recv, hc]; rfl
  have ha : t.aw c = none := by rw [h.aw, hc]; rfl
  have hf : t.frame c = none := by rw [h.frame, hc]; rfl
  have e : t.step (.await c c) = { t with
      aw := Prom.upd t.aw c (some { self := c, got := some (got o) }), recv := Prom.upd t.recv c (some (empty o (base c)))
      log := (c, got o) :: t.log } := by
    cases o <;>
    simp [Prom.St.step, h.ub, Prom.St.can, hr, ha, Prom.St.await, base, full, empty, got, Prom.St.resumeAw,
      Prom.St.getResult, upd_over]
  rw [e]
  exact h.upd rfl (upd_id _ _ _ hf) rfl (.inl rfl) (by simp) (bornT h (by rw [hc]; simp)) h.ub h.killed rfl rfl

theorem PS.finish_runs {t : Prom.St} {ph : Nat → Ph} (h : PS t ph) {c : Nat} (o : Out) (hc : ph c = .runs) :
    PS (t.step (.finish c o)) (Prom.upd ph c (.over o)) := by
  have hr : t.recv c = some (base c) := by rw [h.recv, hc]; rfl
  have ha : t.aw c = none := by rw [h.aw, hc]; rfl
  have hf : t.frame c = some { receiver := some c } := by rw [h.frame, hc]; rfl
  have e : t.step (.finish c o) = { t with
      frame := Prom.upd t.frame c none, recv := Prom.upd t.recv c (some (full o (base c))) } := by
    cases o <;> simp [Prom.St.step, h.ub, Prom.St.can, hr, hf, Prom.St.finish, base, full]
  rw [e]
  exact h.upd rfl rfl (upd_id _ _ _ ha) (.inl rfl) (by simp) (bornT h (by rw [hc]; simp)) h.ub h.killed rfl rfl

theorem PS.finish_awaited {t : Prom.St} {ph : Nat → Ph} (h : PS t ph) {c : Nat} (o : Out) (hc : ph c = .awaited) :
    PS (t.step (.finish c o)) (Prom.upd ph c (.taken o)) := by
  have hr : t.recv c = some { base c with awaited := some c } := by rw [h.recv, hc]; rfl
  have ha : t.aw c = some { self := c } := by rw [h.aw, hc]; rfl
  have hf : t.frame c = some { receiver := some c } := by rw [h.frame, hc]; rfl
  have e : t.step (.finish c o) = { t with
      frame := Prom.upd t.frame c none, recv := Prom.upd t.recv c (some (empty o (base c)))
      aw := Prom.upd t.aw c (some { self := c, got := some (got o) }), log := (c, got o) :: t.log } := by
    cases o <;>
    simp [Prom.St.step, h.ub, Prom.St.can, hr, hf, Prom.St.finish, base, empty, got, Prom.St.resumeAw, ha,
      Prom.St.getResult, upd_over]
  rw [e]
  exact h.upd rfl rfl rfl (.inl rfl) (by simp) (bornT h (by rw [hc]; simp)) h.ub h.killed rfl rfl

theorem PS.drop {t : Prom.St} {ph : Nat → Ph} (h : PS t ph) {c : Nat} {o : Out} (hc : ph c = .taken o) :
    PS ((t.step (.leave c)).step (.drop c)) (Prom.upd ph c (.gone o)) := by
  have hr : t.recv c = some (empty o (base c)) := by rw [h.recv, hc]; rfl
  have ha : t.aw c = some { self := c, got := some (got o) } := by rw [h.aw, hc]; rfl
  have hf : t.frame c = none := by rw [h.frame, hc]; rfl
  have hl := h.leaving c
  have e : (t.step (.leave c)).step (.drop c) = { t with recv := Prom.upd t.recv c none } := by
    have e1 : t.step (.leave c) = { t with leaving := Prom.upd t.leaving c true } := by
      cases o <;> simp [Prom.St.step, h.ub, Prom.St.can, hr, Prom.St.leave, empty, base, Prom.St.cancel]
    rw [e1]
    cases o <;>
    simp [Prom.St.step, h.ub, Prom.St.can, hr, Prom.St.destroyRec, empty, base, upd_over,
      ← upd_id _ _ _ hl]
  rw [e]
  exact h.upd rfl (upd_id _ _ _ hf) (upd_id _ _ _ ha) (.inl rfl) (by simp) (bornT h (by rw [hc]; simp)) h.ub h.killed rfl
    rfl

/-- The stages after the promises in `rs` are destroyed. -/
def dropped (ph : Nat → Ph) (rs : List Nat) : Nat → Ph := fun c =>
  if c ∈ rs then (match ph c with | .taken o => .gone o | q => q) else ph c

theorem PS.drops {t : Prom.St} {ph : Nat → Ph} (h : PS t ph) (rs : List Nat) (hn : rs.Nodup)
    (hr : ∀ r ∈ rs, ∃ o, ph r = .taken o) : PS (Fork.drops t rs) (dropped ph rs) := by
  induction rs generalizing t ph with
  | nil =>
    have : dropped ph [] = ph := by funext c; simp [dropped]
    rw [this]; exact h
  | cons r rs ih =>
    obtain ⟨o, ho⟩ := hr r (List.mem_cons_self)
    have h1 := h.drop ho
    have hn' := List.nodup_cons.1 hn
    have h2 := ih h1 hn'.2 (fun r' hr' => by
      have : r' ≠ r := fun e => hn'.1 (e ▸ hr')
      rw [upd_diff _ _ this]; exact hr r' (List.mem_cons_of_mem _ hr'))
    have e : dropped (Prom.upd ph r (.gone o)) rs = dropped ph (r :: rs) := by
      funext c
      by_cases hc : c = r
      · subst hc; simp [dropped, hn'.1, ho]
      · simp [dropped, hc]
    rw [e] at h2
    exact h2

end Cobalt.Fork
