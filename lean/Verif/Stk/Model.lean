import Mathlib.Data.List.Perm.Basic
/-!
# The stack on which coroutines run

Sources: `include/boost/cobalt/experimental/context.hpp:43-102` (`context_frame::resume`, `do_resume`, `do_await`: a
stackful coroutine), `detail/fork.hpp`, `detail/race.hpp:310`, `detail/promise.hpp:258-271`, `channel.hpp:94` (a coroutine is
resumed within another), `detail/promise.hpp:349` and `detail/generator.hpp` (a coroutine begins when it is made, and hands
over by returning a handle from `await_suspend`).

Coroutines hand over to each other. A usual coroutine that does so returns the handle of the other from `await_suspend`,
and the compiler resumes that one in place of the first: its activation on the stack goes. A stackful coroutine is resumed
by `context_frame::resume`, which runs its fiber and, when that has switched back, calls `await_suspend(h).resume()`
(:77-87) or, if `await_suspend` returned false, `h.resume()` (:65-75), and returns only after this. So its activation stays.

Simplifications: an activation has size one. The stacks of the fibers are not counted; nothing is piled up on them. A
coroutine that resumes another by `.resume()` or makes one that begins at once goes on when this returns.
-/
namespace Cobalt.Stk

inductive Stat where
  | absent
  | susp
  /-- it runs, or waits for a call to return in which others run -/
  | busy
  | over
deriving DecidableEq, Repr

/-- An activation on the stack of the thread. -/
structure Fr where
  co : Nat
  /-- the coroutine has left already: what remains is `context_frame::resume` about to return (:43-48) -/
  left : Bool
deriving DecidableEq, Repr

structure St where
  /-- the stack, the newest first -/
  stack : List Fr := []
  stat : Nat → Stat := fun _ => .absent
  /-- how many coroutines have been made -/
  made : Nat := 0

def upd {α : Type} (f : Nat → α) (i : Nat) (x : α) : Nat → α := fun j => if j = i then x else f j

inductive Ev where
  /-- the executor resumes coroutine `d` -/
  | exec (d : Nat)
  /-- a coroutine is made and begins at once -/
  | create
  /-- who runs calls `d.resume()` -/
  | call (d : Nat)
  /-- who runs awaits something whose `await_suspend` returns the handle of `d` -/
  | transfer (d : Nat)
  /-- or returns false -/
  | refuse
  /-- or suspends it and resumes nobody -/
  | suspend
  /-- who runs ends, and resumes nobody -/
  | finish
  /-- who runs ends, and `final_suspend` returns the handle of `d` -/
  | finishTo (d : Nat)
deriving DecidableEq, Repr

/-- Activations of coroutines that have left return at once. -/
def unwind : List Fr → List Fr
  | [] => []
  | f :: fs => if f.left then unwind fs else f :: fs

/-- The activation of `c` when another is resumed in `do_resume` (:56-87): it stays if `c` is stackful. -/
def leave (ctx : Nat → Bool) (c : Nat) (fs : List Fr) : List Fr := if ctx c then ⟨c, true⟩ :: fs else fs

/-- `ctx c`: coroutine `c` is stackful. Events that are not possible do nothing. -/
def St.step (ctx : Nat → Bool) (s : St) : Ev → St
  | .exec d => if s.stack = [] ∧ s.stat d = .susp then { s with stack := [⟨d, false⟩], stat := upd s.stat d .busy } else s
  | .create => { s with stack := ⟨s.made, false⟩ :: s.stack, stat := upd s.stat s.made .busy, made := s.made + 1 }
  | .call d =>
    if s.stack ≠ [] ∧ s.stat d = .susp then { s with stack := ⟨d, false⟩ :: s.stack, stat := upd s.stat d .busy } else s
  | .transfer d =>
    match s.stack with
    | f :: fs => if s.stat d = .susp then
        { s with stack := ⟨d, false⟩ :: leave ctx f.co fs, stat := upd (upd s.stat f.co .susp) d .busy } else s
    | [] => s
  | .refuse =>
    match s.stack with
    | f :: fs => { s with stack := ⟨f.co, false⟩ :: leave ctx f.co fs }
    | [] => s
  | .suspend =>
    match s.stack with
    | f :: fs => { s with stack := unwind fs, stat := upd s.stat f.co .susp }
    | [] => s
  | .finish =>
    match s.stack with
    | f :: fs => { s with stack := unwind fs, stat := upd s.stat f.co .over }
    | [] => s
  | .finishTo d =>
    match s.stack with
    | f :: fs => if s.stat d = .susp then
        { s with stack := ⟨d, false⟩ :: leave ctx f.co fs, stat := upd (upd s.stat f.co .over) d .busy } else s
    | [] => s

def St.steps (ctx : Nat → Bool) (s : St) (es : List Ev) : St := es.foldl (St.step ctx) s

def run (ctx : Nat → Bool) (es : List Ev) : St := St.steps ctx {} es

end Cobalt.Stk
