import Verif.Stk.Model
/-! What should hold of the stack. -/
namespace Cobalt.Stk

/-- How many coroutines have been made and have not ended. -/
def St.live (s : St) : Nat := (List.range s.made).countP fun c => s.stat c = .busy || s.stat c = .susp

/-- How many of them run or wait for a call to return. -/
def St.busy (s : St) : Nat := (List.range s.made).countP fun c => s.stat c = .busy

/-- How many activations there are of coroutines that have left. -/
def St.lefts (s : St) : Nat := s.stack.countP (·.left)

/-- Who runs is stackful and hands over to another, or to itself. -/
def St.nests (ctx : Nat → Bool) (s : St) (e : Ev) : Bool :=
  match s.stack with
  | [] => false
  | f :: _ => ctx f.co && match e with
    | .transfer d | .finishTo d => s.stat d = .susp
    | .refuse => true
    | _ => false

/-- How often this happens. -/
def nestings (ctx : Nat → Bool) : St → List Ev → Nat
  | _, [] => 0
  | s, e :: es => (if s.nests ctx e then 1 else 0) + nestings ctx (s.step ctx e) es

/-- A coroutine `c` takes `n` values from a lazy generator `g` that does not wait: each time it awaits the generator, whose
`await_suspend` resumes it (detail/generator.hpp:207-249), and which yields the next value and resumes `c` thereby
(detail/generator.hpp:385-404 and the awaitable of `co_yield`). -/
def loop (c g : Nat) : Nat → List Ev
  | 0 => []
  | n + 1 => .transfer g :: .transfer c :: loop c g n

/-- Coroutine 0 awaits `n` tasks one after the other, which do not wait: the task begins when it is awaited, and when it
ends who awaits it goes on (detail/task.hpp:177-200, 358-366). -/
def tasks : Nat → List Ev
  | 0 => [.create]
  | n + 1 => tasks n ++ [.create, .suspend, .transfer (n + 1), .finishTo 0]

end Cobalt.Stk
