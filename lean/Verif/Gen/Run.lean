import Verif.Gen.InvStep
namespace Cobalt.Gen

variable {q : Bool} {p : Sp} {s : St}

theorem Inv.step (h : Inv q p s) {e : Ev} (hc : s.can e = true) (ht : Tidy p s e) (hq : q = true → Plain s e) :
    Inv q (p.step e) (s.step e) := by
  cases e with
  | initial => exact h.initial hc ht
  | yield v => exact h.yield hc
  | ret v => exact h.ret hc
  | throw e => exact h.throw hc ht
  | kill => exact h.kill hc ht
  | run => exact h.run hc
  | await a v => exact h.await hc ht hq
  | interrupt a => exact h.interrupt hc ht hq
  | get a => exact h.get hc ht hq
  | drop => exact h.drop hc

theorem Inv.steps (es : List Ev) : ∀ {p : Sp} {s : St}, Inv q p s → TidyRun p s es → (q = true → PlainRun s es) →
    Inv q (p.steps es) (s.steps es) := by
  induction es with
  | nil => intro p s h _ _; exact h
  | cons e es ih =>
    intro p s h ht hq
    exact ih (h.step ht.1 ht.2.1 fun x => (hq x).1) ht.2.2 fun x => (hq x).2

theorem Inv.after {v : Bool} {es : List Ev} (ht : TidyRun {} { void := v } es) : Inv false (spec es) (St.run v es) :=
  Inv.steps es (Inv.init false v) ht (by simp)

theorem Inv.afterPlain {v : Bool} {es : List Ev} (ht : TidyRun {} { void := v } es) (hq : PlainRun { void := v } es) :
    Inv true (spec es) (St.run v es) :=
  Inv.steps es (Inv.init true v) ht fun _ => hq

theorem run_append (v : Bool) (es : List Ev) (e : Ev) : St.run v (es ++ [e]) = (St.run v es).step e := by
  simp [St.run, St.steps]

theorem Inv.del (h : Inv q p s) (hr : p.dropped = false) : p.outs = delivered s ++ pend s := by
  have := h.dropped
  rw [hr] at this
  exact h.outs (by simpa using this.symm)

theorem Inv.recv (h : Inv q p s) (hr : p.dropped = false) : s.recv = true := by
  have := h.dropped
  rw [hr] at this
  simpa using this.symm

/-- Nothing is pending exactly if the receiver is empty. -/
theorem Inv.pend_nil (h : Inv q p s) : pend s = [] ↔ s.result = none ∧ s.exc = none := by
  have hb := h.buf
  unfold pend
  cases hr : s.result <;> cases hx : s.buffer <;> cases he : s.exc <;> simp [optVal, optErr]
  exact absurd hr (hb _ hx).1

end Cobalt.Gen
