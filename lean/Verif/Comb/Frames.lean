/-!
# The frames of the child coroutines

Who uses the frame of a child, and when, while `gather`, `join` or `race` starts its
children: `detail/fork.hpp:139-166` (the end of a child destroys its frame: either by
`h.destroy()` in `await_suspend` of the final awaitable, or by running off its end),
`gather.hpp:144-170`, `join.hpp:173-199`, `race.hpp:296-323`.

Only the accesses through coroutine handles are recorded, in order; what the children
do otherwise is the subject of `Comb.Model`. Completion after the start is left out:
the combinators have no handles of children left then.
-/
namespace Cobalt.Comb.Frames

/-- A child: its awaitable is ready; or is not, but completes inside `await_suspend`
(or throws there); or completes later. -/
inductive Child where
  | ready | soon | later
deriving DecidableEq, Repr

/-- An access to the frame of child `i`. -/
inductive Op where
  | create (i : Nat)
  | destroy (i : Nat)
  | done (i : Nat)
  | resume (i : Nat)
deriving DecidableEq, Repr

/-- `create` of child `i` in `await_ready`: without an executor it stops at
`co_await wired_up` unless its awaitable is ready. -/
def startUnwired (i : Nat) : Child → List Op
  | .ready => [.create i, .destroy i]
  | _ => [.create i]

/-- `create` of child `i` in `await_suspend`. -/
def startWired (i : Nat) : Child → List Op
  | .later => [.create i]
  | _ => [.create i, .destroy i]

/-- `release().resume()` of child `i` in `await_suspend`. -/
def resume (i : Nat) : Child → List Op
  | .soon => [.resume i, .destroy i]
  | _ => [.resume i]

/-- `await_suspend` of gather and join after the first resumption: handles are
released at once. -/
def startRest : Nat → List Child → List Op
  | _, [] => []
  | i, c :: cs => startWired i c ++ startRest (i + 1) cs

/-- `await_ready` and `await_suspend` of gather and join: `last_forked` holds `held`;
assigning to it destroys what it held. `done()` of a frame that was destroyed at its
final point is taken to be true. -/
def gather : Option Nat → Nat → List Child → List Op
  | _, _, [] => []
  | held, i, c :: cs =>
    startUnwired i c ++ (match held with | some h => [.destroy h] | none => []) ++ [.done i] ++
      (if c = .ready then gather (some i) (i + 1) cs else resume i c ++ startRest (i + 1) cs)

/-- The loop in `await_suspend` of race; `d i` is the answer of `done()` for a child
that has finished. -/
def raceRest (d : Nat → Bool) : Nat → List Child → List Op
  | _, [] => []
  | i, c :: cs =>
    startWired i c ++ [.done i] ++ (if c ≠ .later ∧ d i = true then [] else raceRest d (i + 1) cs)

/-- race; the children in the order in which they are started. If the first is done
`last_forked` still has its frame when the race is destroyed. -/
def race (d : Nat → Bool) : List Child → List Op
  | [] => []
  | c :: cs =>
    startUnwired 0 c ++ [.done 0] ++
      match c with
      | .ready => [.destroy 0]
      | .soon => resume 0 c
      | .later => resume 0 c ++ raceRest d 1 cs

/-- The child an access is about. -/
def Op.child : Op → Nat
  | .create i | .destroy i | .done i | .resume i => i

/-- No frame is used after it was destroyed. -/
def Clean (l : List Op) : Prop := ∀ pre post i, l = pre ++ .destroy i :: post → ∀ o ∈ post, o.child ≠ i

end Cobalt.Comb.Frames
