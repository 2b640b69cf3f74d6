import Verif.Gen.MoveSpec
import Verif.Gen.Run
/-! Lemmas on moved generators. -/
namespace Cobalt.Gen

open Prom (upd upd_apply)

namespace Move

variable {g : Gen.St} {e : Gen.Ev}

/-- What `await_resume` leaves as it is. -/
theorem resumeAw_keeps (g : Gen.St) (a : Nat) :
    (g.resumeAw a).recv = g.recv ∧ (g.resumeAw a).done = g.done ∧ (g.resumeAw a).awaited = g.awaited ∧
    ((g.resumeAw a).phase = g.phase ∨ g.phase = .parked ∧ (g.resumeAw a).phase = .posted) ∧
    (∀ b, (g.resumeAw a).aw b = none ↔ g.aw b = none) := by
  unfold Gen.St.resumeAw
  cases hw : g.aw a with
  | none => simp
  | some w =>
    have key : ∀ (w' : Aw) b, upd g.aw a (some w') b = none ↔ g.aw b = none := by
      intro w' b; simp only [upd_apply]; split <;> simp_all
    simp only
    cases w.ex with
    | some x => simp [Gen.St.give, key, -upd_apply]
    | none =>
      simp only
      cases g.exc with
      | some x => simp [Gen.St.give, key, -upd_apply]
      | none =>
        simp only
        cases g.result with
        | none => simp [Gen.St.give, key, -upd_apply]
        | some v =>
          simp only
          split
          · split
            · simp
            · simp only [Gen.St.takeResult, Gen.St.give, key, true_and]; split <;> simp_all
          · simp only [Gen.St.takeResult, Gen.St.give, key, true_and]; split <;> simp_all

theorem wake_keeps (g : Gen.St) :
    (g.wake).recv = g.recv ∧ (g.wake).done = g.done ∧ (g.wake).awaited = none ∧
    ((g.wake).phase = g.phase ∨ g.phase = .parked ∧ (g.wake).phase = .posted) ∧
    (∀ b, (g.wake).aw b = none ↔ g.aw b = none) := by
  unfold Gen.St.wake
  cases h : g.awaited with
  | none => simp [h]
  | some a =>
    have := resumeAw_keeps { g with awaited := none } a
    simpa using this

/-- What holds in every state of a generator. -/
structure Basic (g : Gen.St) : Prop where
  done : g.recv = true → (g.done = true ↔ g.phase = .gone)
  stuck : g.recv = true → g.phase ≠ .stuck
  lone : g.recv = false → g.phase ≠ .parked

theorem Basic.of_eq {g g' : Gen.St} (h : Basic g) (h1 : g'.recv = g.recv) (h2 : g'.done = g.done)
    (h3 : g'.phase = g.phase ∨ g.phase = .parked ∧ g'.phase = .posted) : Basic g' := by
  obtain ⟨a, b, c⟩ := h
  rcases h3 with h3 | ⟨h3, h4⟩
  · constructor <;> rw [h1] <;> (try rw [h2]) <;> rw [h3] <;> assumption
  · constructor <;> rw [h1] <;> (try rw [h2]) <;> rw [h4] <;> simp_all

theorem Basic.wake {g : Gen.St} (h : Basic g) : Basic g.wake :=
  have k := wake_keeps g
  h.of_eq k.1 k.2.1 k.2.2.2.1

theorem Basic.resumeAw {g : Gen.St} (h : Basic g) (a : Nat) : Basic (g.resumeAw a) :=
  have k := resumeAw_keeps g a
  h.of_eq k.1 k.2.1 k.2.2.2.1

/-- The awaits known after an event, and who waits. -/
structure Kept (g : Gen.St) (e : Gen.Ev) (g' : Gen.St) : Prop where
  recv : e ≠ .drop → g'.recv = g.recv
  awaited : ∀ b, g'.awaited = some b → g.awaited = some b ∨ ∃ p, e = .await b p
  aw : ∀ b, g.aw b = none → g'.aw b = none ∨ (∃ p, e = .await b p) ∨ e = .get b
  done : g.done = true → g'.done = true

theorem Kept.refl (g : Gen.St) (e : Gen.Ev) : Kept g e g :=
  ⟨fun _ => rfl, fun _ h => .inl h, fun _ h => .inl h, id⟩

theorem Kept.wake {g g' : Gen.St} (h : Kept g e g') : Kept g e g'.wake := by
  obtain ⟨k1, k2, k3, -, k5⟩ := wake_keeps g'
  refine ⟨fun x => k1.trans (h.recv x), ?_, fun b hb => ?_, fun hd => by rw [k2]; exact h.done hd⟩
  · intro b hb; rw [k3] at hb; simp at hb
  · rw [k5]; exact h.aw b hb

theorem Kept.resumeAw {g g' : Gen.St} (h : Kept g e g') (a : Nat) : Kept g e (g'.resumeAw a) := by
  obtain ⟨k1, k2, k3, -, k5⟩ := resumeAw_keeps g' a
  refine ⟨fun x => k1.trans (h.recv x), ?_, fun b hb => ?_, fun hd => by rw [k2]; exact h.done hd⟩
  · intro b hb; rw [k3] at hb; exact h.awaited b hb
  · rw [k5]; exact h.aw b hb

theorem bodyResume_basic {g g' : Gen.St} (h : Basic g) (hp : g.phase ≠ .gone) (k : Kept g' e g) :
    Basic g.bodyResume ∧ Kept g' e g.bodyResume := by
  unfold Gen.St.bodyResume
  cases g.pushed with
  | none => exact ⟨⟨h.done, h.stuck, h.lone⟩, ⟨k.recv, k.awaited, k.aw, k.done⟩⟩
  | some v =>
    refine ⟨⟨fun hr => ?_, by simp, by simp⟩, ⟨k.recv, k.awaited, k.aw, k.done⟩⟩
    have := h.done hr
    simp only [reduceCtorEq, iff_false]
    simp_all

theorem suspend_basic {g g' : Gen.St} (h : Basic g) (hp : g.phase = .running) (k : Kept g' e g) :
    Basic g.suspend ∧ Kept g' e g.suspend := by
  unfold Gen.St.suspend
  split
  · rename_i hr
    exact ⟨⟨by simp [hr], by simp, by simp⟩, ⟨k.recv, k.awaited, k.aw, k.done⟩⟩
  · rename_i hr
    split
    · exact bodyResume_basic h (by simp [hp]) k
    · have hb : Basic { g with phase := .parked } := by
        refine ⟨fun hr => ?_, by simp, by simpa using hr⟩
        have := h.done hr
        simp_all
      have hk : Kept g' e { g with phase := .parked } := ⟨k.recv, k.awaited, k.aw, k.done⟩
      exact ⟨hb.wake, hk.wake⟩

theorem put_same (g : Gen.St) (v : Nat) :
    (g.put v).recv = g.recv ∧ (g.put v).done = g.done ∧ (g.put v).awaited = g.awaited ∧ (g.put v).phase = g.phase ∧
    (g.put v).aw = g.aw := by
  unfold Gen.St.put
  split
  · simp
  · split <;> simp

theorem put_basic {g : Gen.St} (h : Basic g) (v : Nat) : Basic (g.put v) ∧ Kept g e (g.put v) := by
  obtain ⟨k1, k2, k3, k4, k5⟩ := put_same g v
  exact ⟨h.of_eq k1 k2 (.inl k4), ⟨fun _ => k1, fun b hb => .inl (by rw [← k3]; exact hb), fun b hb => .inl (by rw [k5]; exact hb),
    fun hd => by rw [k2]; exact hd⟩⟩

theorem finish_basic {g g' : Gen.St} (h : Basic g) (k : Kept g' e g) : Basic g.finish ∧ Kept g' e g.finish := by
  unfold Gen.St.finish
  have hb : Basic { g with phase := .gone, done := true } := ⟨by simp, by simp, by simp⟩
  have hk : Kept g' e { g with phase := .gone, done := true } := ⟨k.recv, k.awaited, k.aw, by simp⟩
  exact ⟨hb.wake, hk.wake⟩

theorem Basic.step {g : Gen.St} (h : Basic g) (e : Gen.Ev) : Basic (g.step e) ∧ Kept g e (g.step e) := by
  unfold Gen.St.step
  split
  · exact ⟨h, .refl g e⟩
  rename_i hc
  simp only [Bool.or_eq_true, Bool.not_eq_eq_eq_not, Bool.not_true, not_or, Bool.not_eq_false] at hc
  obtain ⟨-, hc⟩ := hc
  cases e with
  | initial =>
    have hp : g.phase = .running := by simpa [Gen.St.can] using hc
    simp only
    split
    · exact suspend_basic (g := { g with lazy := true }) ⟨h.done, h.stuck, h.lone⟩ hp
        ⟨fun _ => rfl, fun _ h => .inl h, fun _ h => .inl h, id⟩
    · exact suspend_basic h hp (.refl g _)
  | yield v =>
    have hp : g.phase = .running := by simpa [Gen.St.can] using hc
    have hq := put_basic (e := .yield v) h v
    simp only
    split
    · split
      · exact hq
      · exact suspend_basic hq.1 (by rw [(put_same g v).2.2.2.1, hp]) hq.2
    · exact suspend_basic h hp (.refl g _)
  | ret v =>
    have hq := put_basic (e := .ret v) h v
    simp only
    split
    · split
      · exact hq
      · exact finish_basic hq.1 hq.2
    · rename_i hr
      exact ⟨⟨by simp [hr], by simp, by simp⟩, ⟨fun _ => rfl, fun _ h => .inl h, fun _ h => .inl h, id⟩⟩
  | throw x =>
    simp only
    split
    · exact finish_basic (g := { g with exc := some (.user x) }) ⟨h.done, h.stuck, h.lone⟩
        ⟨fun _ => rfl, fun _ h => .inl h, fun _ h => .inl h, id⟩
    · rename_i hr
      exact ⟨⟨by simp [hr], by simp [hr], by simp⟩, ⟨fun _ => rfl, fun _ h => .inl h, fun _ h => .inl h, id⟩⟩
  | kill =>
    simp only [Gen.St.kill]
    split
    · exact ⟨⟨by simp, by simp, by simp⟩, ⟨fun _ => rfl, by simp, fun _ h => .inl h, by simp⟩⟩
    · rename_i hr
      exact ⟨⟨by simp [hr], by simp, by simp⟩, ⟨fun _ => rfl, fun _ h => .inl h, fun _ h => .inl h, id⟩⟩
  | run =>
    have hp : g.phase = .posted := by simpa [Gen.St.can] using hc
    simp only
    split
    · exact bodyResume_basic h (by simp [hp]) (.refl g _)
    · rename_i hr
      exact ⟨⟨by simp [hr], by simp, by simp⟩, ⟨fun _ => rfl, fun _ h => .inl h, fun _ h => .inl h, id⟩⟩
  | await a p =>
    have key : ∀ (w : Aw) b, g.aw b = none → upd g.aw a (some w) b = none ∨
        (∃ q, Gen.Ev.await a p = .await b q) ∨ Gen.Ev.await a p = .get b := by
      intro w b hb
      by_cases hba : b = a
      · right; left; exact ⟨p, by rw [hba]⟩
      · left; simp [hba, hb]
    have base : ∀ (w : Aw), Kept g (.await a p) { g with aw := upd g.aw a (some w) } := fun w =>
      ⟨fun _ => rfl, fun _ h => .inl h, key w, id⟩
    simp only [Gen.St.await]
    split
    · exact ⟨Basic.resumeAw (g := { g with aw := upd g.aw a (some { push := p }) }) ⟨h.done, h.stuck, h.lone⟩ a, (base _).resumeAw a⟩
    · split
      · have : Kept g (.await a p) { g with aw := upd (upd g.aw a (some { push := p })) a (some { push := p, ex := some .alreadyAwaited }) } := by
          refine ⟨fun _ => rfl, fun _ h => .inl h, fun b hb => ?_, id⟩
          have := key { push := p } b hb
          by_cases hba : b = a
          · right; left; exact ⟨p, by rw [hba]⟩
          · left; simp [hba, hb]
        refine ⟨Basic.resumeAw ?_ a, this.resumeAw a⟩
        exact ⟨h.done, h.stuck, h.lone⟩
      · have fin : ∀ g1 : Gen.St, Basic g1 → Kept g (.await a p) g1 → Basic (if g1.phase = .parked then g1.bodyResume else g1) ∧
            Kept g (.await a p) (if g1.phase = .parked then g1.bodyResume else g1) := by
          intro g1 hb hk
          split
          · rename_i hp; exact bodyResume_basic hb (by simp [hp]) hk
          · exact ⟨hb, hk⟩
        apply fin
        · split <;> exact ⟨h.done, h.stuck, h.lone⟩
        · split
          · refine ⟨fun _ => rfl, ?_, fun b hb => ?_, id⟩
            · intro b hb
              simp only [Option.some.injEq] at hb
              right; exact ⟨p, by rw [hb]⟩
            · by_cases hba : b = a
              · right; left; exact ⟨p, by rw [hba]⟩
              · left; simp [hba, hb]
          · refine ⟨fun _ => rfl, ?_, key _, id⟩
            intro b hb
            simp only [Option.some.injEq] at hb
            right; exact ⟨p, by rw [hb]⟩
  | interrupt a =>
    simp only [Gen.St.interrupt]
    cases hw : g.aw a with
    | none => exact ⟨⟨h.done, h.stuck, h.lone⟩, ⟨fun _ => rfl, fun _ h => .inl h, fun _ h => .inl h, id⟩⟩
    | some w =>
      have hk : Kept g (.interrupt a) { g with aw := upd g.aw a (some { w with ex := some .detached }) } := by
        refine ⟨fun _ => rfl, fun _ h => .inl h, fun b hb => .inl ?_, id⟩
        by_cases hba : b = a
        · subst hba; rw [hw] at hb; simp at hb
        · simp [hba, hb]
      exact ⟨Basic.wake ⟨h.done, h.stuck, h.lone⟩, hk.wake⟩
  | get a =>
    have key : ∀ (w : Aw) b, g.aw b = none → upd g.aw a (some w) b = none ∨
        (∃ q, Gen.Ev.get a = .await b q) ∨ Gen.Ev.get a = .get b := by
      intro w b hb
      by_cases hba : b = a
      · right; right; rw [hba]
      · left; simp [hba, hb]
    simp only [Gen.St.get]
    split
    · exact ⟨⟨h.done, h.stuck, h.lone⟩, ⟨fun _ => rfl, fun _ h => .inl h, key _, id⟩⟩
    · split
      · exact ⟨⟨h.done, h.stuck, h.lone⟩, ⟨fun _ => rfl, fun _ h => .inl h, fun _ h => .inl h, id⟩⟩
      · exact ⟨⟨h.done, h.stuck, h.lone⟩, ⟨fun _ => rfl, fun _ h => .inl h, key _, id⟩⟩
  | drop =>
    simp only [Gen.St.drop]
    refine ⟨⟨by simp, by simp, ?_⟩, ⟨by simp, by simp, fun _ h => .inl h, id⟩⟩
    intro _
    split <;> simp_all

theorem Basic.steps (es : List Gen.Ev) : ∀ {g : Gen.St}, Basic g → Basic (g.steps es) := by
  induction es with
  | nil => intro g h; exact h
  | cons e es ih => intro g h; exact ih (h.step e).1

theorem Basic.run (v : Bool) (es : List Gen.Ev) : Basic (Gen.St.run v es) :=
  Basic.steps es ⟨by simp, by simp, by simp⟩

/-- Undefined behaviour is final. -/
theorem step_ub {g : Gen.St} (h : g.ub = true) (e : Gen.Ev) : g.step e = g := by
  unfold Gen.St.step
  simp [h]

/-- A body without receiver depends on nothing but where it is. -/
theorem alone_step {g : Gen.St} (v : Bool) (hr : g.recv = false) (hu : g.ub = false) (hb : isBody e = true) :
    (g.step e).phase = (Gen.St.step { void := v, recv := false, phase := g.phase } e).phase ∧
    (g.step e).ub = false ∧ (Gen.St.step { void := v, recv := false, phase := g.phase } e).ub = false ∧
    (g.step e).recv = false := by
  cases e <;> simp only [isBody, Bool.false_eq_true] at hb <;>
    simp only [Gen.St.step, Gen.St.can, hu, hr, Bool.false_or, Bool.false_eq_true, if_false, Gen.St.suspend, Gen.St.kill] <;>
    split <;> simp_all

/-- The objects are as if they had never been moved. -/
structure Sim (v : Bool) (left : Nat → Nat) (p : Sp) (s : St) : Prop where
  ub : s.ub = false
  void : s.void = v
  left : s.left = left
  gub : ∀ c, (Gen.St.run v (p.hist c)).ub = false
  nothing : ∀ r, s.obj r = none ↔ p.holds r = .nothing
  obj : ∀ r c, p.holds r = .of c → s.obj r = some ⟨Gen.St.run v (p.hist c), c⟩
  recv : ∀ r c, p.holds r = .of c → (Gen.St.run v (p.hist c)).recv = true
  born : ∀ r c, p.holds r = .of c → s.born c = true
  gone : ∀ c, s.born c = true → (Gen.St.run v (p.hist c)).phase = .gone → s.frame c = none
  frame : ∀ r c, p.holds r = .of c → (Gen.St.run v (p.hist c)).phase ≠ .gone →
    ∃ f, s.frame c = some f ∧ f.receiver = some r
  moved : ∀ r, p.holds r = .moved → ∃ o, s.obj r = some o ∧ o.g.done = true ∧ o.g.phase = .gone ∧ o.g.awaited = none ∧
    o.g.recv = true ∧ o.g.ub = false ∧ (o.g.exc = none ∨ o.g.exc = some .movedFrom)
  uniq : ∀ r r' c, p.holds r = .of c → p.holds r' = .of c → r = r'
  lone : ∀ c, s.born c = true → (∀ r, p.holds r ≠ .of c) → (Gen.St.run v (p.hist c)).recv = false ∧
    ((Gen.St.run v (p.hist c)).phase ≠ .gone →
      ∃ f, s.frame c = some f ∧ f.receiver = none ∧ f.phase = (Gen.St.run v (p.hist c)).phase)
  unborn : ∀ c, s.born c = false → s.frame c = none ∧ p.hist c = []
  fresh : ∀ a, s.self a = none → ∀ r o, s.obj r = some o → o.g.aw a = none
  waits : ∀ r o a, s.obj r = some o → o.g.awaited = some a → s.self a = some r
  self : ∀ a r, s.self a = some r → p.self a = r
  legal : ∀ c, Gen.Legal { void := v } (p.hist c)
  refs : ∀ r o, s.obj r = some o → s.born o.ref = true

variable {v : Bool} {left : Nat → Nat} {p : Sp} {s : St}

theorem Sim.init (v : Bool) (left : Nat → Nat) : Sim v left {} { void := v, left := left } := by
  constructor <;> simp [Gen.St.run, Gen.St.steps, Gen.Legal]

/-- A frame knows who holds it. -/
theorem Sim.holder (h : Sim v left p s) {c r : Nat} {f : Frame} (hf : s.frame c = some f) (hr : f.receiver = some r) :
    p.holds r = .of c := by
  have hb : s.born c = true := by
    cases hb : s.born c with
    | true => rfl
    | false => have := (h.unborn c hb).1; rw [hf] at this; simp at this
  have hg : (Gen.St.run v (p.hist c)).phase ≠ .gone := by
    intro hg; have := h.gone c hb hg; rw [hf] at this; simp at this
  by_cases hx : ∃ q, p.holds q = .of c
  · obtain ⟨q, hq⟩ := hx
    obtain ⟨f', hf', hq'⟩ := h.frame q c hq hg
    rw [hf] at hf'
    simp only [Option.some.injEq] at hf'
    subst hf'
    rw [hr] at hq'
    simp only [Option.some.injEq] at hq'
    rw [hq', hq]
  · obtain ⟨-, h2⟩ := h.lone c hb (fun q hq => hx ⟨q, hq⟩)
    obtain ⟨f', hf', hq', -⟩ := h2 hg
    rw [hf] at hf'
    simp only [Option.some.injEq] at hf'
    subst hf'
    rw [hr] at hq'
    simp at hq'

theorem legal_append {e : Gen.Ev} (es : List Gen.Ev) : ∀ {g : Gen.St}, Gen.Legal g es → (g.steps es).can e = true →
    Gen.Legal g (es ++ [e]) := by
  induction es with
  | nil => intro g _ h; exact ⟨h, trivial⟩
  | cons x es ih => intro g h hc; exact ⟨h.1, ih h.2 hc⟩

/-- An event of the generator at `r` or of its body. -/
theorem Sim.act (h : Sim v left p s) {r c : Nat} (hh : p.holds r = .of c) (hd : e ≠ .drop)
    (hc : (Gen.St.run v (p.hist c)).can e = true) (hu : (Gen.St.run v (p.hist c ++ [e])).ub = false)
    {self' : Nat → Option Nat} {ps' : Nat → Nat}
    (h1 : ∀ a, self' a = none → s.self a = none ∧ (∀ x, e ≠ .await a x) ∧ e ≠ .get a)
    (h2 : ∀ a q, s.self a = some q → self' a = some q) (h3 : ∀ a x, e = .await a x → self' a = some r)
    (h4 : ∀ a q, self' a = some q → ps' a = q) :
    Sim v left { p with hist := upd p.hist c (p.hist c ++ [e]), self := ps' }
      (St.put { s with self := self' } r ⟨Gen.St.run v (p.hist c), c⟩ (Gen.St.run v (p.hist c ++ [e]))) := by
  have hb := h.born r c hh
  have bas := Basic.run v (p.hist c)
  have hst := run_append v (p.hist c) e
  have kept := (bas.step e).2
  rw [← hst] at kept
  have bas' := Basic.run v (p.hist c ++ [e])
  have hobj := h.obj r c hh
  have hrecv := h.recv r c hh
  have hleg := legal_append (p.hist c) (h.legal c) hc
  generalize hG : Gen.St.run v (p.hist c) = g at *
  generalize hG' : Gen.St.run v (p.hist c ++ [e]) = g' at *
  have hrecv' : g'.recv = true := by rw [kept.recv hd, hrecv]
  have runs : ∀ d, Gen.St.run v (upd p.hist c (p.hist c ++ [e]) d) = if d = c then g' else Gen.St.run v (p.hist d) := by
    intro d; simp only [upd_apply]; split
    · rw [hG']
    · rfl
  -- a body that is gone does not come back
  have back : g.phase = .gone → g'.phase = .gone := by
    intro hg
    have := (bas.done hrecv).2 hg
    exact (bas'.done hrecv').1 (kept.done this)
  refine ⟨hu, h.void, h.left, ?_, ?_, ?_, ?_, h.born, ?_, ?_, ?_, h.uniq, ?_, ?_, ?_, ?_, h4, ?_, ?_⟩
  · intro d; rw [runs]; split
    · exact hu
    · exact h.gub d
  · intro q
    simp only [St.put, upd_apply]
    split
    · rename_i hq; subst hq; simp [hh]
    · exact h.nothing q
  · intro q d hq
    rw [runs]
    simp only [St.put, upd_apply]
    by_cases hqr : q = r
    · subst hqr
      rw [hh] at hq
      cases hq
      simp
    · have hdc : d ≠ c := fun hdc => hqr (h.uniq q r c (hdc ▸ hq) hh)
      simp only [hqr, if_false, hdc]
      exact h.obj q d hq
  · intro q d hq
    rw [runs]
    split
    · exact hrecv'
    · exact h.recv q d hq
  · intro d hbd
    rw [runs]
    simp only [St.put]
    by_cases hdc : d = c
    · subst hdc
      simp only [if_true]
      intro hg
      by_cases hg0 : g.phase = .gone
      · have := h.gone d hb (by rw [hG]; exact hg0)
        split <;> simp_all
      · simp [hg, hg0]
    · simp only [hdc, if_false]
      intro hg
      have := h.gone d hbd hg
      split
      · simp [hdc, this]
      · exact this
  · intro q d hq
    rw [runs]
    simp only [St.put]
    by_cases hdc : d = c
    · subst hdc
      simp only [if_true]
      intro hg
      have hg0 : g.phase ≠ .gone := fun x => hg (back x)
      obtain ⟨f, hf, hfr⟩ := h.frame q d hq (by rw [hG]; exact hg0)
      exact ⟨f, by simp [hg, hf], hfr⟩
    · simp only [hdc, if_false]
      intro hg
      obtain ⟨f, hf, hfr⟩ := h.frame q d hq hg
      refine ⟨f, ?_, hfr⟩
      split
      · simp [hdc, hf]
      · exact hf
  · intro q hq
    have hqr : q ≠ r := by intro hqr; subst hqr; rw [hh] at hq; simp at hq
    obtain ⟨o, ho⟩ := h.moved q hq
    exact ⟨o, by simp [St.put, hqr, ho.1], ho.2⟩
  · intro d hbd hn
    have hdc : d ≠ c := fun hdc => hn r (hdc ▸ hh)
    rw [runs]
    simp only [hdc, if_false]
    obtain ⟨l1, l2⟩ := h.lone d hbd hn
    refine ⟨l1, fun hg => ?_⟩
    obtain ⟨f, hf, hfr⟩ := l2 hg
    refine ⟨f, ?_, hfr⟩
    simp only [St.put]
    split
    · simp [hdc, hf]
    · exact hf
  · intro d hbd
    have hdc : d ≠ c := by intro hdc; subst hdc; change s.born d = false at hbd; rw [hb] at hbd; simp at hbd
    obtain ⟨u1, u2⟩ := h.unborn d hbd
    refine ⟨?_, by simp [hdc, u2]⟩
    simp only [St.put]
    split
    · simp [hdc, u1]
    · exact u1
  · intro a ha q o hq
    obtain ⟨n1, n2, n3⟩ := h1 a ha
    simp only [St.put, upd_apply] at hq
    split at hq
    · simp only [Option.some.injEq] at hq
      subst hq
      rcases kept.aw a (h.fresh a n1 r _ hobj) with k | ⟨x, k⟩ | k
      · exact k
      · exact absurd k (n2 x)
      · exact absurd k n3
    · exact h.fresh a n1 q o hq
  · intro q o a hq ha
    simp only [St.put, upd_apply] at hq
    split at hq
    · rename_i hqr
      subst hqr
      simp only [Option.some.injEq] at hq
      subst hq
      rcases kept.awaited a ha with k | ⟨x, k⟩
      · exact h2 a q (h.waits q _ a hobj k)
      · exact h3 a x k
    · exact h2 a q (h.waits q o a hq ha)
  · intro d
    by_cases hdc : d = c
    · subst hdc; simpa using hleg
    · simpa [hdc] using h.legal d
  · intro q o hq
    simp only [St.put, upd_apply] at hq
    split at hq
    · simp only [Option.some.injEq] at hq; subst hq; exact hb
    · exact h.refs q o hq

/-- An event of a body whose generator is gone. -/
theorem Sim.bodyAlone (h : Sim v left p s) {c : Nat} {f : Frame} (hf : s.frame c = some f) (hr : f.receiver = none)
    (hb : isBody e = true) (hc : (s.alone f.phase).can e = true) :
    Sim v left (p.step (.body c e)) (s.body c e) := by
  have hborn : s.born c = true := by
    cases hb : s.born c with
    | true => rfl
    | false => have := (h.unborn c hb).1; rw [hf] at this; simp at this
  have hng : (Gen.St.run v (p.hist c)).phase ≠ .gone := by
    intro hg; have := h.gone c hborn hg; rw [hf] at this; simp at this
  have hno : ∀ r, p.holds r ≠ .of c := by
    intro r hq
    obtain ⟨f', hf', hq'⟩ := h.frame r c hq hng
    rw [hf] at hf'
    simp only [Option.some.injEq] at hf'
    subst hf'
    rw [hr] at hq'
    simp at hq'
  obtain ⟨l1, l2⟩ := h.lone c hborn hno
  obtain ⟨f', hf', -, hph⟩ := l2 hng
  rw [hf] at hf'
  simp only [Option.some.injEq] at hf'
  subst hf'
  obtain ⟨a1, a2, a3, a4⟩ := alone_step (e := e) s.void l1 (h.gub c) hb
  rw [← hph] at a1 a3
  rw [← run_append] at a1 a2 a4
  have hcan : (Gen.St.run v (p.hist c)).can e = true := by
    cases e <;> simp only [isBody, Bool.false_eq_true] at hb <;> simpa only [St.alone, Gen.St.can, hph] using hc
  have hleg := legal_append (p.hist c) (h.legal c) hcan
  unfold St.body
  simp only [hf, hr, St.alone, Sp.step]
  generalize Gen.St.step { void := s.void, recv := false, phase := f.phase } e = g at *
  have runs : ∀ d, Gen.St.run v (upd p.hist c (p.hist c ++ [e]) d) =
      if d = c then Gen.St.run v (p.hist c ++ [e]) else Gen.St.run v (p.hist d) := by
    intro d; simp only [upd_apply]; split <;> rfl
  refine ⟨a3, h.void, h.left, ?_, h.nothing, ?_, ?_, h.born, ?_, ?_, h.moved, h.uniq, ?_, ?_, h.fresh, h.waits, h.self, ?_, h.refs⟩
  · intro d; rw [runs]; split
    · exact a2
    · exact h.gub d
  · intro q d hq
    have hdc : d ≠ c := fun x => hno q (x ▸ hq)
    rw [runs]; simp only [hdc, if_false]; exact h.obj q d hq
  · intro q d hq
    have hdc : d ≠ c := fun x => hno q (x ▸ hq)
    rw [runs]; simp only [hdc, if_false]; exact h.recv q d hq
  · intro d hbd
    rw [runs]
    by_cases hdc : d = c
    · subst hdc
      simp only [if_true, upd_apply]
      intro hg
      rw [← a1, hg]; rfl
    · simp only [hdc, if_false, upd_apply]; exact h.gone d hbd
  · intro q d hq
    have hdc : d ≠ c := fun x => hno q (x ▸ hq)
    rw [runs]; simp only [hdc, if_false, upd_apply]; exact h.frame q d hq
  · intro d hbd hn
    rw [runs]
    by_cases hdc : d = c
    · subst hdc
      simp only [if_true, upd_apply]
      refine ⟨a4, fun hg => ?_⟩
      rw [a1] at hg
      rw [if_neg hg]
      exact ⟨_, rfl, rfl, a1.symm⟩
    · simp only [hdc, if_false, upd_apply]; exact h.lone d hbd hn
  · intro d hbd
    have hdc : d ≠ c := by intro hdc; subst hdc; change s.born d = false at hbd; rw [hborn] at hbd; simp at hbd
    simp only [upd_apply, hdc, if_false]; exact h.unborn d hbd
  · intro d
    by_cases hdc : d = c
    · subst hdc; simpa using hleg
    · simpa [hdc] using h.legal d

theorem Sim.create (h : Sim v left p s) {c r : Nat} (hb : s.born c = false) (ho : s.obj r = none) :
    Sim v left (p.step (.create c r)) { s with
      born := upd s.born c true, frame := upd s.frame c (some { receiver := some r })
      obj := upd s.obj r (some { g := { void := s.void }, ref := c }) } := by
  have hn := (h.nothing r).1 ho
  obtain ⟨u1, u2⟩ := h.unborn c hb
  have hno : ∀ q, p.holds q ≠ .of c := by
    intro q hq; have := h.born q c hq; rw [hb] at this; simp at this
  have hrun : Gen.St.run v (p.hist c) = { void := v } := by rw [u2]; rfl
  have hhold : ∀ q d, upd p.holds r (.of c) q = .of d → (q = r ∧ d = c) ∨ (q ≠ r ∧ d ≠ c ∧ p.holds q = .of d) := by
    intro q d hq
    by_cases hqr : q = r
    · subst hqr; simp at hq; exact .inl ⟨rfl, hq.symm⟩
    · simp [hqr] at hq; exact .inr ⟨hqr, fun x => hno q (x ▸ hq), hq⟩
  refine ⟨h.ub, h.void, h.left, h.gub, ?_, ?_, ?_, ?_, ?_, ?_, ?_, ?_, ?_, ?_, ?_, ?_, h.self, h.legal, ?_⟩
  · intro q
    by_cases hqr : q = r
    · subst hqr; simp [Sp.step]
    · simpa [Sp.step, hqr] using h.nothing q
  · intro q d hq
    rcases hhold q d hq with ⟨h1, h2⟩ | ⟨h1, h2, h3⟩
    · subst h1; subst h2
      simp only [Sp.step, hrun, h.void, upd_apply, if_true]
    · simpa [Sp.step, h1] using h.obj q d h3
  · intro q d hq
    rcases hhold q d hq with ⟨h1, h2⟩ | ⟨h1, h2, h3⟩
    · subst h1; subst h2
      simp only [Sp.step, hrun]
    · exact h.recv q d h3
  · intro q d hq
    rcases hhold q d hq with ⟨h1, h2⟩ | ⟨h1, h2, h3⟩
    · simp [h2]
    · simpa [h2] using h.born q d h3
  · intro d hbd
    by_cases hdc : d = c
    · subst hdc; simp only [Sp.step, hrun]; intro hx; simp at hx
    · simp only [upd_apply, hdc, if_false] at hbd ⊢; exact h.gone d hbd
  · intro q d hq hg
    rcases hhold q d hq with ⟨h1, h2⟩ | ⟨h1, h2, h3⟩
    · subst h1; subst h2; exact ⟨_, by simp; rfl, rfl⟩
    · simpa [h2] using h.frame q d h3 hg
  · intro q hq
    have hqr : q ≠ r := by intro x; subst x; simp [Sp.step] at hq
    simp only [Sp.step, upd_apply, hqr, if_false] at hq ⊢
    exact h.moved q hq
  · intro q q' d hq hq'
    rcases hhold q d hq with ⟨h1, h2⟩ | ⟨h1, h2, h3⟩ <;> rcases hhold q' d hq' with ⟨i1, i2⟩ | ⟨i1, i2, i3⟩
    · rw [h1, i1]
    · exact absurd h2 i2
    · exact absurd i2 h2
    · exact h.uniq q q' d h3 i3
  · intro d hbd hn'
    have hdc : d ≠ c := by intro x; subst x; exact hn' r (by simp [Sp.step])
    simp only [upd_apply, hdc, if_false] at hbd ⊢
    refine h.lone d hbd fun q hq => hn' q ?_
    have hqr : q ≠ r := by intro x; subst x; rw [hn] at hq; simp at hq
    simp [Sp.step, hqr, hq]
  · intro d hbd
    have hdc : d ≠ c := by intro x; subst x; simp at hbd
    simp only [upd_apply, hdc, if_false] at hbd ⊢
    exact h.unborn d hbd
  · intro a ha q o hq
    by_cases hqr : q = r
    · subst hqr
      simp only [upd_apply, if_true, Option.some.injEq] at hq
      subst hq; rfl
    · simp only [upd_apply, hqr, if_false] at hq; exact h.fresh a ha q o hq
  · intro q o a hq ha
    by_cases hqr : q = r
    · subst hqr
      simp only [upd_apply, if_true, Option.some.injEq] at hq
      subst hq; simp at ha
    · simp only [upd_apply, hqr, if_false] at hq; exact h.waits q o a hq ha
  · intro q o hq
    by_cases hqr : q = r
    · subst hqr
      simp only [upd_apply, if_true, Option.some.injEq] at hq
      subst hq; simp
    · simp only [upd_apply, hqr, if_false] at hq ⊢
      split
      · rfl
      · exact h.refs q o hq

/-- Awaiting an object that was moved from, when that fails. -/
theorem moved_await {o : Obj} {a x : Nat} (h1 : o.g.done = true) (h2 : o.g.phase = .gone) (h3 : o.g.awaited = none)
    (h4 : o.g.recv = true) (h5 : o.g.ub = false) (h6 : o.g.exc = none ∨ o.g.exc = some .movedFrom)
    (h7 : o.g.aw a = none) (h8 : o.g.exc.isSome || o.g.result.isNone) :
    (o.g.step (.await a x)).done = true ∧ (o.g.step (.await a x)).phase = .gone ∧ (o.g.step (.await a x)).awaited = none ∧
    (o.g.step (.await a x)).recv = true ∧ (o.g.step (.await a x)).ub = false ∧ (o.g.step (.await a x)).exc = none ∧
    (o.g.step (.await a x)).log = (a, .err (if o.g.exc = none then .returnedVoid else .movedFrom)) :: o.g.log ∧
    (o.g.step (.await a x)).result = o.g.result := by
  have hc : o.g.can (.await a x) = true := by simp [Gen.St.can, h4, h7]
  unfold Gen.St.step
  rw [if_neg (by simp [h5, hc])]
  simp only [Gen.St.await, Gen.St.ready, h1, Bool.or_true, if_true, Gen.St.resumeAw, upd_apply]
  rcases h6 with h6 | h6
  · have h8 : o.g.result = none := by simpa [h6] using h8
    simp [h6, h8, Gen.St.give, h1, h2, h3, h4, h5]
  · simp [h6, Gen.St.give, h1, h2, h3, h4, h5]

theorem Sim.awaitMoved (h : Sim v left p s) {r a x : Nat} {o : Obj} (hh : p.holds r = .moved) (ho : s.obj r = some o)
    (hs : s.self a = none) (ht : spent s r = true) :
    Sim v left (p.step (.await a r x)) (St.put { s with self := upd s.self a (some r) } r o (o.g.step (.await a x))) := by
  obtain ⟨o', ho', m1, m2, m3, m4, m5, m6⟩ := h.moved r hh
  rw [ho] at ho'
  simp only [Option.some.injEq] at ho'
  subst ho'
  have hf := h.fresh a hs r o ho
  simp only [spent, ho] at ht
  obtain ⟨n1, n2, n3, n4, n5, n6, -, -⟩ := moved_await (x := x) m1 m2 m3 m4 m5 m6 hf ht
  have kept := (Basic.step (g := o.g) ⟨by simp [m1, m2], by simp [m2], by simp [m4]⟩ (.await a x)).2
  have hp : p.step (.await a r x) = { p with self := upd p.self a r } := by
    simp only [Sp.step, Sp.note, hh]
  have hput : St.put { s with self := upd s.self a (some r) } r o (o.g.step (.await a x)) =
      { s with self := upd s.self a (some r), obj := upd s.obj r (some { o with g := o.g.step (.await a x) }) } := by
    simp only [St.put, m2, n2, ne_eq, not_true_eq_false, and_false, if_false, n5, h.ub]
  rw [hp, hput]
  refine ⟨h.ub, h.void, h.left, h.gub, ?_, ?_, h.recv, h.born, h.gone, h.frame, ?_, h.uniq, h.lone, h.unborn, ?_, ?_, ?_, h.legal, ?_⟩
  · intro q
    by_cases hqr : q = r
    · subst hqr; simp [hh]
    · simpa [hqr] using h.nothing q
  · intro q d hq
    have hqr : q ≠ r := by intro x; subst x; change p.holds q = .of d at hq; rw [hh] at hq; simp at hq
    simpa [hqr] using h.obj q d hq
  · intro q hq
    by_cases hqr : q = r
    · subst hqr
      exact ⟨{ o with g := o.g.step (.await a x) }, by simp, n1, n2, n3, n4, n5, .inl n6⟩
    · simpa [hqr] using h.moved q hq
  · intro b hb q o2 hq
    have hba : b ≠ a := by intro x; subst x; simp at hb
    simp only [upd_apply, hba, if_false] at hb
    by_cases hqr : q = r
    · subst hqr
      simp only [upd_apply, if_true, Option.some.injEq] at hq
      subst hq
      rcases kept.aw b (h.fresh b hb q o ho) with k | ⟨y, k⟩ | k
      · exact k
      · cases k; exact absurd rfl hba
      · cases k
    · simp only [upd_apply, hqr, if_false] at hq
      exact h.fresh b hb q o2 hq
  · intro q o2 b hq hb
    by_cases hqr : q = r
    · subst hqr
      simp only [upd_apply, if_true, Option.some.injEq] at hq
      subst hq
      simp only [n3] at hb; simp at hb
    · simp only [upd_apply, hqr, if_false] at hq
      have := h.waits q o2 b hq hb
      by_cases hba : b = a
      · subst hba; rw [hs] at this; simp at this
      · simpa [hba] using this
  · intro b q hb
    by_cases hba : b = a
    · subst hba; simpa using hb
    · simp only [upd_apply, hba, if_false] at hb ⊢
      exact h.self b q hb
  · intro q o2 hq
    by_cases hqr : q = r
    · subst hqr
      simp only [upd_apply, if_true, Option.some.injEq] at hq
      subst hq; exact h.refs q o ho
    · simp only [upd_apply, hqr, if_false] at hq; exact h.refs q o2 hq

/-- Destroying a generator, or the first part of assigning to it. -/
theorem Sim.drop (h : Sim v left p s) {r : Nat} {o : Obj} (ho : s.obj r = some o) {k : List Nat} {fr : Nat → Option Frame}
    (hfr : (∃ c, p.holds r = .of c ∧ fr = upd s.frame c (if o.g.phase = .parked ∨ o.g.phase = .gone then none
        else some { receiver := none, phase := o.g.phase })) ∨ p.holds r = .moved ∧ fr = s.frame) :
    Sim v left (p.step (.drop r)) { s with frame := fr, killed := k, obj := upd s.obj r none } := by
  have hn : p.holds r ≠ .nothing := by
    intro x; have := (h.nothing r).2 x; rw [ho] at this; simp at this
  have hnoth : ∀ q, upd s.obj r none q = none ↔ upd p.holds r .nothing q = .nothing := by
    intro q
    by_cases hqr : q = r
    · subst hqr; simp
    · simpa [hqr] using h.nothing q
  have hold : ∀ q d, upd p.holds r .nothing q = .of d → q ≠ r ∧ p.holds q = .of d := by
    intro q d hq
    by_cases hqr : q = r
    · subst hqr; simp at hq
    · exact ⟨hqr, by simpa [hqr] using hq⟩
  have hmv : ∀ q, upd p.holds r .nothing q = .moved → q ≠ r ∧ p.holds q = .moved := by
    intro q hq
    by_cases hqr : q = r
    · subst hqr; simp at hq
    · exact ⟨hqr, by simpa [hqr] using hq⟩
  have refs : ∀ q o2, upd s.obj r none q = some o2 → s.born o2.ref = true := by
    intro q o2 hq
    by_cases hqr : q = r
    · subst hqr; simp at hq
    · exact h.refs q o2 (by simpa [hqr] using hq)
  rcases hfr with ⟨c, hh, hfr⟩ | ⟨hh, hfr⟩
  · have hobj := h.obj r c hh
    rw [ho] at hobj
    simp only [Option.some.injEq] at hobj
    subst hobj
    have hb := h.born r c hh
    have hrecv := h.recv r c hh
    have bas := Basic.run v (p.hist c)
    have hu := h.gub c
    have hcan : (Gen.St.run v (p.hist c)).can .drop = true := by simp [Gen.St.can, hrecv]
    have hleg := legal_append (p.hist c) (h.legal c) hcan
    have hdrop : Gen.St.run v (p.hist c ++ [.drop]) = (Gen.St.run v (p.hist c)).drop := by
      rw [run_append]; unfold Gen.St.step; rw [if_neg (by simp [hu, hcan])]
    have runs : ∀ d, Gen.St.run v (upd p.hist c (p.hist c ++ [.drop]) d) =
        if d = c then (Gen.St.run v (p.hist c)).drop else Gen.St.run v (p.hist d) := by
      intro d; simp only [upd_apply]; split
      · rw [hdrop]
      · rfl
    have hp : p.step (.drop r) = { p with hist := upd p.hist c (p.hist c ++ [.drop]), holds := upd p.holds r .nothing } := by
      simp only [Sp.step, Sp.note, hh]
    rw [hp]
    generalize hG : Gen.St.run v (p.hist c) = g at *
    have other : ∀ q d, q ≠ r → p.holds q = .of d → d ≠ c := fun q d hq hd hdc => hq (h.uniq q r c (hdc ▸ hd) hh)
    refine ⟨h.ub, h.void, h.left, ?_, hnoth, ?_, ?_, ?_, ?_, ?_, ?_, ?_, ?_, ?_, ?_, ?_, h.self, ?_, refs⟩
    · intro d; rw [runs]; split
      · exact hu
      · exact h.gub d
    · intro q d hq
      obtain ⟨q1, q2⟩ := hold q d hq
      rw [runs]
      simp only [other q d q1 q2, if_false, upd_apply, q1]
      exact h.obj q d q2
    · intro q d hq
      obtain ⟨q1, q2⟩ := hold q d hq
      rw [runs]
      simp only [other q d q1 q2, if_false]
      exact h.recv q d q2
    · intro q d hq
      exact h.born q d (hold q d hq).2
    · intro d hbd
      rw [runs]
      by_cases hdc : d = c
      · subst hdc
        simp only [if_true, hfr, upd_apply, Gen.St.drop]
        intro hg
        rw [if_pos]
        by_cases hpk : g.phase = .parked
        · exact .inl hpk
        · rw [if_neg hpk] at hg; exact .inr hg
      · simp only [hdc, if_false, hfr, upd_apply]; exact h.gone d hbd
    · intro q d hq
      obtain ⟨q1, q2⟩ := hold q d hq
      rw [runs]
      simp only [other q d q1 q2, if_false, hfr, upd_apply]
      exact h.frame q d q2
    · intro q hq
      obtain ⟨q1, q2⟩ := hmv q hq
      simpa [q1] using h.moved q q2
    · intro q q' d hq hq'
      exact h.uniq q q' d (hold q d hq).2 (hold q' d hq').2
    · intro d hbd hno
      rw [runs]
      by_cases hdc : d = c
      · subst hdc
        simp only [if_true, hfr, upd_apply, Gen.St.drop]
        refine ⟨trivial, fun hg => ?_⟩
        by_cases hpk : g.phase = .parked
        · rw [if_pos hpk] at hg; exact absurd rfl hg
        · rw [if_neg hpk] at hg ⊢
          rw [if_neg (by simp [hpk, hg])]
          exact ⟨_, rfl, rfl, rfl⟩
      · simp only [hdc, if_false, hfr, upd_apply]
        refine h.lone d hbd fun q hq => hno q ?_
        have hqr : q ≠ r := by intro x; subst x; rw [hh] at hq; cases hq; exact hdc rfl
        simp [hqr, hq]
    · intro d hbd
      have hdc : d ≠ c := by intro hdc; subst hdc; change s.born d = false at hbd; rw [hb] at hbd; simp at hbd
      simp only [hfr, upd_apply, hdc, if_false]; exact h.unborn d hbd
    · intro a ha q o2 hq
      by_cases hqr : q = r
      · subst hqr; simp at hq
      · simp only [upd_apply, hqr, if_false] at hq; exact h.fresh a ha q o2 hq
    · intro q o2 a hq ha
      by_cases hqr : q = r
      · subst hqr; simp at hq
      · simp only [upd_apply, hqr, if_false] at hq; exact h.waits q o2 a hq ha
    · intro d
      by_cases hdc : d = c
      · subst hdc; simpa using hleg
      · simpa [hdc] using h.legal d
  · have hp : p.step (.drop r) = { p with holds := upd p.holds r .nothing } := by
      simp only [Sp.step, Sp.note, hh]
    rw [hp, hfr]
    refine ⟨h.ub, h.void, h.left, h.gub, hnoth, ?_, ?_, ?_, h.gone, ?_, ?_, ?_, ?_, h.unborn, ?_, ?_, h.self, h.legal, refs⟩
    · intro q d hq
      obtain ⟨q1, q2⟩ := hold q d hq
      simp only [upd_apply, q1, if_false]; exact h.obj q d q2
    · intro q d hq; exact h.recv q d (hold q d hq).2
    · intro q d hq; exact h.born q d (hold q d hq).2
    · intro q d hq; exact h.frame q d (hold q d hq).2
    · intro q hq
      obtain ⟨q1, q2⟩ := hmv q hq
      simpa [q1] using h.moved q q2
    · intro q q' d hq hq'; exact h.uniq q q' d (hold q d hq).2 (hold q' d hq').2
    · intro d hbd hno
      refine h.lone d hbd fun q hq => hno q ?_
      have hqr : q ≠ r := by intro x; subst x; rw [hh] at hq; simp at hq
      simp [hqr, hq]
    · intro a ha q o2 hq
      by_cases hqr : q = r
      · subst hqr; simp at hq
      · simp only [upd_apply, hqr, if_false] at hq; exact h.fresh a ha q o2 hq
    · intro q o2 a hq ha
      by_cases hqr : q = r
      · subst hqr; simp at hq
      · simp only [upd_apply, hqr, if_false] at hq; exact h.waits q o2 a hq ha

/-- Moving an object nobody waits for to a place where there is none. -/
theorem Sim.move (h : Sim v left p s) {r r' : Nat} {o : Obj} (ho : s.obj r = some o) (hn : s.obj r' = none)
    (ha : o.g.awaited = none) : Sim v left (p.step (.moveC r r')) (s.moveConstruct r r') := by
  have hne : r' ≠ r := by intro x; subst x; rw [ho] at hn; simp at hn
  have hh' := (h.nothing r').1 hn
  have hh : p.holds r ≠ .nothing := by
    intro x; have := (h.nothing r).2 x; rw [ho] at this; simp at this
  -- the frames afterwards
  have hrep : ∃ fr, s.repoint o r' = { s with frame := fr } ∧
      (∀ c, p.holds r = .of c → (Gen.St.run v (p.hist c)).phase ≠ .gone →
        (∃ f, fr c = some f ∧ f.receiver = some r') ∧ ∀ d, d ≠ c → fr d = s.frame d) ∧
      ((∀ c, p.holds r = .of c → (Gen.St.run v (p.hist c)).phase = .gone) → fr = s.frame) := by
    unfold St.repoint
    cases hd : o.g.done with
    | true =>
      refine ⟨s.frame, by simp, ?_, fun _ => rfl⟩
      intro c hc hg
      have := h.obj r c hc
      rw [ho] at this
      simp only [Option.some.injEq] at this
      subst this
      exact absurd (((Basic.run v (p.hist c)).done (h.recv r c hc)).1 hd) hg
    | false =>
      cases hx : p.holds r with
      | nothing => exact absurd hx hh
      | moved =>
        obtain ⟨o', ho', hd', -⟩ := h.moved r hx
        rw [ho] at ho'
        simp only [Option.some.injEq] at ho'
        subst ho'
        rw [hd] at hd'; simp at hd'
      | of c =>
        have hobj := h.obj r c hx
        rw [ho] at hobj
        simp only [Option.some.injEq] at hobj
        subst hobj
        have hg : (Gen.St.run v (p.hist c)).phase ≠ .gone := by
          intro hg; have := ((Basic.run v (p.hist c)).done (h.recv r c hx)).2 hg; rw [hd] at this; simp at this
        obtain ⟨f, hf, -⟩ := h.frame r c hx hg
        simp only [Bool.false_eq_true, if_false, hf]
        refine ⟨_, rfl, ?_, ?_⟩
        · intro d hd' _
          cases hd'
          exact ⟨⟨_, by simp; rfl, rfl⟩, fun d hdc => by simp [hdc]⟩
        · intro hall
          exact absurd (hall c rfl) hg
  obtain ⟨fr, hfr, hfr1, hfr2⟩ := hrep
  -- frames of other coroutines stay
  have hfrO : ∀ d, p.holds r ≠ .of d → fr d = s.frame d := by
    intro d hd
    by_cases hx : ∀ c, p.holds r = .of c → (Gen.St.run v (p.hist c)).phase = .gone
    · rw [hfr2 hx]
    · have hx : ∃ c, p.holds r = .of c ∧ (Gen.St.run v (p.hist c)).phase ≠ .gone :=
        Classical.byContradiction fun hy => hx fun c hc => Classical.byContradiction fun hg => hy ⟨c, hc, hg⟩
      obtain ⟨c, hc, hg⟩ := hx
      refine (hfr1 c hc hg).2 d fun hdc => hd (hdc ▸ hc)
  unfold St.moveConstruct
  simp only [ho, hfr]
  have hold : ∀ q d, upd (upd p.holds r .moved) r' (p.holds r) q = .of d →
      (q = r' ∧ p.holds r = .of d) ∨ (q ≠ r' ∧ q ≠ r ∧ p.holds q = .of d) := by
    intro q d hq
    by_cases h1 : q = r'
    · subst h1; simp at hq; exact .inl ⟨rfl, hq⟩
    · by_cases h2 : q = r
      · subst h2; simp [h1] at hq
      · simp [h1, h2] at hq; exact .inr ⟨h1, h2, hq⟩
  refine ⟨h.ub, h.void, h.left, h.gub, ?_, ?_, ?_, ?_, ?_, ?_, ?_, ?_, ?_, ?_, ?_, ?_, h.self, h.legal, ?_⟩
  · intro q
    by_cases h1 : q = r'
    · subst h1; simpa [Sp.step] using hh
    · by_cases h2 : q = r
      · subst h2; simp [Sp.step, h1]
      · simpa [Sp.step, h1, h2] using h.nothing q
  · intro q d hq
    rcases hold q d hq with ⟨h1, h2⟩ | ⟨h1, h2, h3⟩
    · subst h1
      have := h.obj r d h2
      rw [ho] at this
      simpa [Sp.step] using this
    · simpa [Sp.step, h1, h2] using h.obj q d h3
  · intro q d hq
    rcases hold q d hq with ⟨h1, h2⟩ | ⟨h1, h2, h3⟩
    · exact h.recv r d h2
    · exact h.recv q d h3
  · intro q d hq
    rcases hold q d hq with ⟨h1, h2⟩ | ⟨h1, h2, h3⟩
    · exact h.born r d h2
    · exact h.born q d h3
  · intro d hbd hg
    have := h.gone d hbd hg
    by_cases hx : p.holds r = .of d
    · rw [hfr2]
      · exact this
      · intro c hc; rw [hx] at hc; cases hc; exact hg
    · dsimp only; rw [hfrO d hx]; exact this
  · intro q d hq hg
    rcases hold q d hq with ⟨h1, h2⟩ | ⟨h1, h2, h3⟩
    · subst h1; exact (hfr1 d h2 hg).1
    · have := h.frame q d h3 hg
      dsimp only
      rw [hfrO d (fun hx => h2 (h.uniq q r d h3 hx))]; exact this
  · intro q hq
    by_cases h1 : q = r'
    · subst h1
      have hq : p.holds r = .moved := by simpa [Sp.step] using hq
      obtain ⟨o', ho', m⟩ := h.moved r hq
      rw [ho] at ho'
      simp only [Option.some.injEq] at ho'
      subst ho'
      exact ⟨o, by simp, m⟩
    · by_cases h2 : q = r
      · subst h2
        refine ⟨s.source o, by simp [h1]; rfl, rfl, rfl, rfl, rfl, rfl, ?_⟩
        simp only [St.source]; split <;> simp
      · have hq : p.holds q = .moved := by simpa [Sp.step, h1, h2] using hq
        simpa [h1, h2] using h.moved q hq
  · intro q q' d hq hq'
    rcases hold q d hq with ⟨h1, h2⟩ | ⟨h1, h2, h3⟩ <;> rcases hold q' d hq' with ⟨i1, i2⟩ | ⟨i1, i2, i3⟩
    · rw [h1, i1]
    · exact absurd (h.uniq q' r d i3 h2) i2
    · exact absurd (h.uniq q r d h3 i2) h2
    · exact h.uniq q q' d h3 i3
  · intro d hbd hno
    have hx : p.holds r ≠ .of d := fun hx => hno r' (by simp [Sp.step, hx])
    dsimp only
    rw [hfrO d hx]
    refine h.lone d hbd fun q hq => ?_
    have h1 : q ≠ r' := by intro x; subst x; rw [hh'] at hq; simp at hq
    have h2 : q ≠ r := by intro x; subst x; exact hx hq
    exact hno q (by simp [Sp.step, h1, h2, hq])
  · intro d hbd
    have hx : p.holds r ≠ .of d := by
      intro hx; have := h.born r d hx; change s.born d = false at hbd; rw [hbd] at this; simp at this
    dsimp only
    rw [hfrO d hx]; exact h.unborn d hbd
  · intro a hs q o2 hq
    by_cases h1 : q = r'
    · subst h1
      simp only [upd_apply, if_true, Option.some.injEq] at hq
      subst hq; exact h.fresh a hs r o ho
    · by_cases h2 : q = r
      · subst h2
        simp only [upd_apply, h1, if_false, if_true, Option.some.injEq] at hq
        subst hq; rfl
      · simp only [upd_apply, h1, h2, if_false] at hq; exact h.fresh a hs q o2 hq
  · intro q o2 a hq hw
    by_cases h1 : q = r'
    · subst h1
      simp only [upd_apply, if_true, Option.some.injEq] at hq
      subst hq; rw [ha] at hw; simp at hw
    · by_cases h2 : q = r
      · subst h2
        simp only [upd_apply, h1, if_false, if_true, Option.some.injEq] at hq
        subst hq; simp [St.source] at hw
      · simp only [upd_apply, h1, h2, if_false] at hq; exact h.waits q o2 a hq hw
  · intro q o2 hq
    by_cases h1 : q = r'
    · subst h1
      simp only [upd_apply, if_true, Option.some.injEq] at hq
      subst hq; exact h.refs r o ho
    · by_cases h2 : q = r
      · subst h2
        simp only [upd_apply, h1, if_false, if_true, Option.some.injEq] at hq
        subst hq; exact h.refs q o ho
      · simp only [upd_apply, h1, h2, if_false] at hq; exact h.refs q o2 hq

/-- `*reference = this` finds the frame. -/
theorem Sim.repoint_ub (h : Sim v left p s) {r r' : Nat} {o : Obj} (ho : s.obj r = some o) : (s.repoint o r').ub = false := by
  unfold St.repoint
  cases hd : o.g.done with
  | true => simpa using h.ub
  | false =>
    cases hx : p.holds r with
    | nothing => have := (h.nothing r).2 hx; rw [ho] at this; simp at this
    | moved =>
      obtain ⟨o', ho', hd', -⟩ := h.moved r hx
      rw [ho] at ho'
      simp only [Option.some.injEq] at ho'
      subst ho'
      rw [hd] at hd'; simp at hd'
    | of c =>
      have hobj := h.obj r c hx
      rw [ho] at hobj
      simp only [Option.some.injEq] at hobj
      subst hobj
      have hg : (Gen.St.run v (p.hist c)).phase ≠ .gone := by
        intro hg; have := ((Basic.run v (p.hist c)).done (h.recv r c hx)).2 hg; rw [hd] at this; simp at this
      obtain ⟨f, hf, -⟩ := h.frame r c hx hg
      simpa [hf] using h.ub

/-- A coroutine has a frame until it is gone. -/
theorem Sim.lives_iff (h : Sim v left p s) {r : Nat} {o : Obj} (ho : s.obj r = some o) :
    lives s r = true ↔ (Gen.St.run v (p.hist o.ref)).phase ≠ .gone := by
  have hb := h.refs r o ho
  simp only [lives, ho, Option.isSome_iff_exists]
  constructor
  · intro ⟨f, hf⟩ hg
    have := h.gone o.ref hb hg
    rw [hf] at this; simp at this
  · intro hg
    by_cases hx : ∃ q, p.holds q = .of o.ref
    · obtain ⟨q, hq⟩ := hx
      obtain ⟨f, hf, -⟩ := h.frame q _ hq hg
      exact ⟨f, hf⟩
    · obtain ⟨f, hf, -⟩ := (h.lone o.ref hb fun q hq => hx ⟨q, hq⟩).2 hg
      exact ⟨f, hf⟩

/-- Nothing undefined happened and the objects are as if they had never been moved, or
something undefined happens in the history of a generator without its moves. -/
def SimOr (v : Bool) (left : Nat → Nat) (p : Sp) (s : St) : Prop :=
  Sim v left p s ∨ s.ub = true ∧ ∃ c, (Gen.St.run v (p.hist c)).ub = true

/-- An event of the generator at `r` or of its body. -/
theorem Sim.actOr (h : Sim v left p s) {r c : Nat} (hh : p.holds r = .of c) (hd : e ≠ .drop)
    (hc : (Gen.St.run v (p.hist c)).can e = true)
    {self' : Nat → Option Nat} {ps' : Nat → Nat}
    (h1 : ∀ a, self' a = none → s.self a = none ∧ (∀ x, e ≠ .await a x) ∧ e ≠ .get a)
    (h2 : ∀ a q, s.self a = some q → self' a = some q) (h3 : ∀ a x, e = .await a x → self' a = some r)
    (h4 : ∀ a q, self' a = some q → ps' a = q) :
    SimOr v left { p with hist := upd p.hist c (p.hist c ++ [e]), self := ps' }
      (St.put { s with self := self' } r ⟨Gen.St.run v (p.hist c), c⟩ ((Gen.St.run v (p.hist c)).step e)) := by
  rw [← run_append]
  cases hu : (Gen.St.run v (p.hist c ++ [e])).ub with
  | false => exact .inl (h.act hh hd hc hu h1 h2 h3 h4)
  | true => exact .inr ⟨hu, c, by simpa using hu⟩

theorem note_of {r c : Nat} (hh : p.holds r = .of c) (e : Gen.Ev) :
    p.note r e = { p with hist := upd p.hist c (p.hist c ++ [e]) } := by simp only [Sp.note, hh]

/-- The first part of assigning to `r`. -/
theorem Sim.leave (h : Sim v left p s) {r : Nat} {o : Obj} (ho : s.obj r = some o) (hl : lives s r = true) :
    (s.leave r o).ub = false ∧ Sim v left (p.step (.drop r)) { s.leave r o with obj := upd s.obj r none } := by
  simp only [lives, ho, Option.isSome_iff_exists] at hl
  obtain ⟨f, hf⟩ := hl
  unfold St.leave
  simp only [hf]
  cases hx : p.holds r with
  | nothing => have := (h.nothing r).2 hx; rw [ho] at this; simp at this
  | of c =>
    have hobj := h.obj r c hx
    rw [ho] at hobj
    simp only [Option.some.injEq] at hobj
    subst hobj
    have hg : (Gen.St.run v (p.hist c)).phase ≠ .gone := by
      intro hg; have := h.gone c (h.born r c hx) hg; rw [hf] at this; simp at this
    obtain ⟨f', hf', hr⟩ := h.frame r c hx hg
    rw [hf] at hf'
    simp only [Option.some.injEq] at hf'
    subst hf'
    rw [if_pos hr]
    exact ⟨h.ub, h.drop ho (.inl ⟨c, hx, by simp [hg]⟩)⟩
  | moved =>
    have hr : f.receiver ≠ some r := by
      intro hr; have := h.holder hf hr; rw [hx] at this; simp at this
    rw [if_neg hr]
    exact ⟨h.ub, h.drop ho (.inr ⟨hx, rfl⟩)⟩

theorem moveAssign_eq {r r' : Nat} {o o' : Obj} (hne : r ≠ r') (ho : s.obj r = some o) (ho' : s.obj r' = some o')
    (hu : (s.leave r o).ub = false) :
    s.moveAssign r r' = St.moveConstruct { s.leave r o with obj := upd s.obj r none } r' r := by
  have hobj : (s.leave r o).obj = s.obj := by unfold St.leave; split <;> (try split) <;> rfl
  unfold St.moveAssign St.moveConstruct
  simp only [ho, ho', hu, Bool.false_eq_true, if_false, upd_apply, Ne.symm hne]
  have key : ∀ (f : Nat → Option Obj) x y, upd (upd f r' x) r y = upd (upd (upd f r none) r' x) r y := by
    intro f x y
    funext q
    simp only [upd_apply]
    split
    · rfl
    · split <;> rfl
  simp only [St.repoint]
  split
  · simp only [hobj, St.source]
    rw [key, hu]
  · split
    · simp only [hobj, St.source]
      rw [key]
    · simp only [hobj, St.source]
      rw [key, hu]

theorem assign_spec {r r' : Nat} (hne : r ≠ r') : p.step (.moveA r r') = (p.step (.drop r)).step (.moveC r' r) := by
  have key : ∀ f : Nat → Holds, upd (upd f r' .moved) r (f r') =
      upd (upd (upd f r .nothing) r' .moved) r (upd f r .nothing r') := by
    intro f
    funext q
    simp only [upd_apply, Ne.symm hne, if_false]
    split
    · rfl
    · split <;> rfl
  simp only [Sp.step]
  rw [key p.holds]

theorem Sim.step (h : Sim v left p s) {e : Ev} (hc : s.can e = true) (ht : Tidy p s e) :
    SimOr v left (p.step e) (s.step e) := by
  unfold St.step
  rw [if_neg (by simp [h.ub, hc])]
  -- the object at `r`
  have at_ : ∀ r o, s.obj r = some o → (∃ c, p.holds r = .of c ∧ o = ⟨Gen.St.run v (p.hist c), c⟩) ∨ p.holds r = .moved := by
    intro r o ho
    cases hx : p.holds r with
    | nothing => have := (h.nothing r).2 hx; rw [ho] at this; simp at this
    | of c =>
      have := h.obj r c hx
      rw [ho] at this
      simp only [Option.some.injEq] at this
      exact .inl ⟨c, rfl, this⟩
    | moved => exact .inr rfl
  -- a new await
  have new : ∀ a r c (e : Gen.Ev), p.holds r = .of c → s.self a = none → (Gen.St.run v (p.hist c)).can e = true →
      ((∃ x, e = .await a x) ∨ e = .get a) →
      SimOr v left { p with hist := upd p.hist c (p.hist c ++ [e]), self := upd p.self a r }
        (St.put { s with self := upd s.self a (some r) } r ⟨Gen.St.run v (p.hist c), c⟩ ((Gen.St.run v (p.hist c)).step e)) := by
    intro a r c e hh hs hc he
    have hd : e ≠ .drop := by rcases he with ⟨x, he⟩ | he <;> rw [he] <;> simp
    refine h.actOr hh hd hc ?_ ?_ ?_ ?_
    · intro b hb
      have hba : b ≠ a := by intro x; subst x; simp at hb
      simp only [upd_apply, hba, if_false] at hb
      refine ⟨hb, ?_, ?_⟩
      · rcases he with ⟨x, he⟩ | he <;> rw [he] <;> simp [Ne.symm hba]
      · rcases he with ⟨x, he⟩ | he <;> rw [he] <;> simp [Ne.symm hba]
    · intro b q hb
      have hba : b ≠ a := by intro x; subst x; rw [hs] at hb; simp at hb
      simpa [hba] using hb
    · intro b x hb
      rcases he with ⟨y, he⟩ | he
      · rw [he] at hb; cases hb; simp
      · rw [he] at hb; cases hb
    · intro b q hb
      by_cases hba : b = a
      · subst hba; simpa using hb
      · simp only [upd_apply, hba, if_false] at hb ⊢; exact h.self b q hb
  cases e with
  | create c r =>
    simp only [St.can, Bool.and_eq_true, Bool.not_eq_eq_eq_not, Bool.not_true, Option.isNone_iff_eq_none] at hc
    exact .inl (h.create hc.1 hc.2)
  | body c e =>
    simp only [St.can, Bool.and_eq_true] at hc
    obtain ⟨hb, hc⟩ := hc
    cases hf : s.frame c with
    | none => rw [hf] at hc; simp at hc
    | some f =>
      rw [hf] at hc
      cases hr : f.receiver with
      | none =>
        simp only [hr] at hc
        exact .inl (h.bodyAlone hf hr hb hc)
      | some r =>
        have hh := h.holder hf hr
        have ho := h.obj r c hh
        simp only [hr, ho] at hc
        have hd : e ≠ .drop := by intro x; subst x; simp [isBody] at hb
        have haw : s.away r ⟨Gen.St.run v (p.hist c), c⟩ = none := by
          unfold St.away
          cases hw : (Gen.St.run v (p.hist c)).awaited with
          | none => rfl
          | some a => simp [h.waits r _ a ho hw]
        have hbody : s.body c e = s.put r ⟨Gen.St.run v (p.hist c), c⟩ ((Gen.St.run v (p.hist c)).step e) := by
          unfold St.body
          simp only [hf, hr, ho, haw]
          split <;> rfl
        simp only [hbody]
        refine h.actOr (self' := s.self) (ps' := p.self) hh hd hc ?_ (fun _ _ x => x) ?_ h.self
        · intro a ha
          refine ⟨ha, ?_, ?_⟩
          · intro x hx; subst hx; simp [isBody] at hb
          · intro hx; subst hx; simp [isBody] at hb
        · intro a x hx; subst hx; simp [isBody] at hb
  | await a r x =>
    simp only [St.can, Bool.and_eq_true, Option.isNone_iff_eq_none, Option.isSome_iff_exists] at hc
    obtain ⟨⟨o, ho⟩, hs⟩ := hc
    simp only [ho]
    rcases at_ r o ho with ⟨c, hh, rfl⟩ | hh
    · have := new a r c (.await a x) hh hs (by simp [Gen.St.can, h.recv r c hh]; exact h.fresh a hs r _ ho) (.inl ⟨x, rfl⟩)
      simp only [Sp.step, note_of hh]
      exact this
    · exact .inl (h.awaitMoved hh ho hs (ht hh))
  | interrupt a =>
    simp only [St.can] at hc
    cases hs : s.self a with
    | none => rw [hs] at hc; simp at hc
    | some r =>
      simp only [hs] at hc
      cases ho : s.obj r with
      | none => rw [ho] at hc; simp at hc
      | some o =>
        simp only [ho, Bool.and_eq_true, beq_iff_eq] at hc
        obtain ⟨hw, hc⟩ := hc
        simp only [hs, ho]
        rcases at_ r o ho with ⟨c, hh, rfl⟩ | hh
        · have hps := h.self a r hs
          simp only [Sp.step, hps, note_of hh]
          exact h.actOr (self' := s.self) (ps' := p.self) hh (by simp) hc (fun b hb => ⟨hb, by simp, by simp⟩)
            (fun _ _ x => x) (by simp) h.self
        · obtain ⟨o', ho', -, -, hw', -⟩ := h.moved r hh
          rw [ho] at ho'
          simp only [Option.some.injEq] at ho'
          subst ho'
          rw [hw'] at hw
          simp at hw
  | get a r =>
    simp only [St.can, Bool.and_eq_true, Option.isNone_iff_eq_none, Option.isSome_iff_exists] at hc
    obtain ⟨⟨o, ho⟩, hs⟩ := hc
    simp only [ho]
    rcases at_ r o ho with ⟨c, hh, rfl⟩ | hh
    · have := new a r c (.get a) hh hs (by simp [Gen.St.can, h.recv r c hh]; exact h.fresh a hs r _ ho) (.inr rfl)
      simp only [Sp.step, note_of hh]
      exact this
    · exact absurd hh ht
  | moveC r r' =>
    simp only [St.can, Bool.and_eq_true, Option.isNone_iff_eq_none, Option.isSome_iff_exists] at hc
    obtain ⟨⟨o, ho⟩, hn⟩ := hc
    have ht : unawaited s r = true := ht
    simp only [unawaited, ho, Option.isNone_iff_eq_none] at ht
    exact .inl (h.move ho hn ht)
  | moveA r r' =>
    simp only [St.can, Bool.and_eq_true, Option.isSome_iff_exists, bne_iff_ne, ne_eq] at hc
    obtain ⟨⟨⟨o, ho⟩, o', ho'⟩, hne⟩ := hc
    obtain ⟨ht, hl⟩ : unawaited s r' = true ∧ lives s r = true := ht
    simp only [unawaited, ho', Option.isNone_iff_eq_none] at ht
    obtain ⟨hu, h1⟩ := h.leave ho hl
    simp only
    rw [moveAssign_eq hne ho ho' hu, assign_spec hne]
    exact .inl (h1.move (o := o') (by simp [Ne.symm hne, ho']) (by simp) ht)
  | drop r =>
    simp only [St.can, Option.isSome_iff_exists] at hc
    obtain ⟨o, ho⟩ := hc
    left
    simp only [St.drop, ho]
    rcases at_ r o ho with ⟨c, hh, hoc⟩ | hh
    · have bas := (Basic.run v (p.hist c)).done (h.recv r c hh)
      by_cases hd : o.g.done = true
      · simp only [hd, if_true]
        have hg : o.g.phase = .gone := by rw [hoc] at hd ⊢; exact bas.1 hd
        refine h.drop ho (.inl ⟨c, hh, ?_⟩)
        have hfn := h.gone c (h.born r c hh) (by rw [hoc] at hg; exact hg)
        funext d
        simp only [hg, or_true, if_true, upd_apply]
        split
        · rename_i hdc; rw [hdc, hfn]
        · rfl
      · simp only [hd]
        have hg : (Gen.St.run v (p.hist c)).phase ≠ .gone := by
          intro hg; rw [hoc] at hd; exact hd (bas.2 hg)
        obtain ⟨f, hf, -⟩ := h.frame r c hh hg
        have := (h.leave ho (by simp [lives, ho]; rw [hoc]; simp [hf])).2
        have hobj : (s.leave r o).obj = s.obj := by unfold St.leave; split <;> (try split) <;> rfl
        simpa [hobj] using this
    · obtain ⟨o', ho', hd, -⟩ := h.moved r hh
      rw [ho] at ho'
      simp only [Option.some.injEq] at ho'
      subst ho'
      simp only [hd, if_true]
      exact h.drop ho (.inr ⟨hh, rfl⟩)

theorem run_ub_keeps {c : Nat} (e : Ev) (h : (Gen.St.run v (p.hist c)).ub = true) :
    (Gen.St.run v ((p.step e).hist c)).ub = true := by
  have key : ∀ d x, (Gen.St.run v (upd p.hist d (p.hist d ++ [x]) c)).ub = true := by
    intro d x
    simp only [upd_apply]
    split
    · rename_i hcd; subst hcd; rw [run_append, step_ub h, h]
    · exact h
  have note : ∀ r x, (Gen.St.run v ((p.note r x).hist c)).ub = true := by
    intro r x
    unfold Sp.note
    split
    · exact key _ _
    · exact h
  cases e with
  | create c r => exact h
  | body d x => exact key d x
  | await a r x => exact note r _
  | interrupt a => exact note _ _
  | get a r => exact note r _
  | moveC r r' => exact h
  | moveA r r' => exact note r _
  | drop r => exact note r _

theorem SimOr.step (h : SimOr v left p s) {e : Ev} (hc : s.can e = true) (ht : Tidy p s e) :
    SimOr v left (p.step e) (s.step e) := by
  rcases h with h | ⟨hu, c, hg⟩
  · exact h.step hc ht
  · exact .inr ⟨by unfold St.step; simp [hu], c, run_ub_keeps e hg⟩

theorem SimOr.steps (es : List Ev) : ∀ {p : Sp} {s : St}, SimOr v left p s → TidyRun p s es →
    SimOr v left (p.steps es) (s.steps es) := by
  induction es with
  | nil => intro p s h _; exact h
  | cons e es ih => intro p s h ht; exact ih (h.step ht.1 ht.2.1) ht.2.2

theorem SimOr.after {es : List Ev} (ht : TidyRun {} { void := v, left := left } es) :
    SimOr v left (spec es) (St.run v left es) :=
  SimOr.steps es (.inl (Sim.init v left)) ht

end Move

end Cobalt.Gen
