import Verif.Fork.Model
/-! What coroutines that start and await others should do. -/
namespace Cobalt.Fork
open Prom (Out)

/-- What the program `f` has done when `h` came of it. -/
def done (f : List Res → Act) (h : List Res) : List Act := (List.range h.length).map fun i => f (h.take i)

/-- The arguments of the coroutines that were started. -/
def starts (as : List Act) : List Nat := as.filterMap fun a => match a with | .start b => some b | _ => none

def ofOut : Out → Res
  | .val v => .val v
  | .exc e => .exc e

/-- `h` is what happens to a coroutine with argument `a`, if what an await gives is what the awaited coroutine ends with
when it is run by itself. There is no executor here, no order and no promise. -/
inductive Hist (N : Prog) : Nat → List Res → Prop
  | nil (a : Nat) : Hist N a []
  | start {a h} (b : Nat) : Hist N a h → N.act a h = .start b → Hist N a (h ++ [.started])
  | op {a h} (x : Nat) : Hist N a h → N.act a h = .op x → Hist N a (h ++ [.val (N.op x)])
  | await {a h b h' o} (k : Nat) : Hist N a h → N.act a h = .await k → (starts (done (N.act a) h))[k]? = some b →
      Hist N b h' → N.act b h' = .fin o → Hist N a (h ++ [ofOut o])

/-- A coroutine with argument `a` ends with `o`. -/
def Ends (N : Prog) (a : Nat) (o : Out) : Prop := ∃ h, Hist N a h ∧ N.act a h = .fin o

/-- A coroutine awaits only what it has started, and each of them once, before it ends. -/
structure Prog.proper (N : Prog) : Prop where
  known : ∀ a h k, Hist N a h → N.act a h = .await k → k < (starts (done (N.act a) h)).length
  once : ∀ a h k, Hist N a h → N.act a h = .await k → Act.await k ∉ done (N.act a) h
  all : ∀ a h o, Hist N a h → N.act a h = .fin o → ∀ k, k < (starts (done (N.act a) h)).length →
    Act.await k ∈ done (N.act a) h

/-- Nothing can happen any more: no coroutine is about to go on or waits for an operation. -/
def St.rest (s : St) : Prop := ∀ c, c < s.next → s.pos c ≠ .idle ∧ ∀ x, s.pos c ≠ .onOp x

/-- The event does something. -/
def St.useful (s : St) : Ev → Prop
  | .go c => c < s.next ∧ s.pos c = .idle
  | .complete c => ∃ x, s.pos c = .onOp x

/-- All events do something. -/
def St.usefuls (N : Prog) (s : St) : List Ev → Prop
  | [] => True
  | e :: es => s.useful e ∧ St.usefuls N (s.step N e) es

end Cobalt.Fork
