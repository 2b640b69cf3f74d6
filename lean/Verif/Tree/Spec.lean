import Verif.Tree.Model
/-! What should hold of trees of coroutines that are cancelled or abandoned. -/
namespace Cobalt.Tree
open Prom (Out)

/-- Nothing can happen any more: no coroutine is about to go on or waits for an operation. -/
def St.rest (s : St) : Prop := ∀ c, c < s.next → s.pos c ≠ .idle ∧ ∀ x, s.pos c ≠ .onOp x

/-- The coroutine was started and has not ended. -/
def St.live (s : St) (c : Nat) : Prop := c < s.next ∧ ∀ o, s.pos c ≠ .ended o

/-- `d` is `c`, or has started it, or has started who has started it, and so on. -/
inductive Anc (par : Nat → Nat) : Nat → Nat → Prop
  | refl (c : Nat) : Anc par c c
  | up {c d : Nat} : c ≠ 0 → Anc par (par c) d → Anc par c d

/-- Coroutine `c` ended with an exception when its promise had been destroyed already. -/
def Escaped (N : Prog) (a : Nat) (es : List Ev) (c : Nat) : Prop :=
  ∃ es₁ e es₂ x, es = es₁ ++ e :: es₂ ∧ (run N a es₁).live c ∧ (run N a es₁).prom.recv c = none ∧
    (run N a (es₁ ++ [e])).pos c = .ended (.exc x)

/-- If every await throws from now on, the coroutine with argument `a` that has seen `h` ends, and so do those it
starts. -/
inductive Quits (N : Prog) : Nat → List Res → Prop
  | fin {a h} (o : Out) : N.act a h = .fin o → Quits N a h
  | op {a h} (x : Nat) : N.act a h = .op x → Quits N a (h ++ [.cancelled]) → Quits N a h
  | await {a h} (k : Nat) : N.act a h = .await k → Quits N a (h ++ [.cancelled]) → Quits N a h
  | start {a h} (b : Nat) : N.act a h = .start b → Quits N b [] → Quits N a (h ++ [.started]) → Quits N a h

/-- This holds of every coroutine that has not ended, whatever comes of what it awaits now. -/
def St.ready (N : Prog) (s : St) : Prop := ∀ c, s.live c →
  (s.pos c = .idle → Quits N (s.arg c) (s.hist c)) ∧
  (∀ x, s.pos c = .onOp x → Quits N (s.arg c) (s.hist c ++ [.cancelled])) ∧
  ∀ r, s.pos c = .on r → ∀ g, Quits N (s.arg c) (s.hist c ++ [g])

/-- A cancelled coroutine goes on, or an operation that was told to stop does so. -/
def St.winds (s : St) : Ev → Prop
  | .go c => c < s.next ∧ s.pos c = .idle ∧ s.cancelled c = true
  | .complete c stop => (∃ x, s.pos c = .onOp x) ∧ s.told c = true ∧ stop = true
  | _ => False

/-- Only such events happen. -/
def St.windsAll (N : Prog) (s : St) : List Ev → Prop
  | [] => True
  | e :: es => s.winds e ∧ (s.step N e).windsAll N es

end Cobalt.Tree
