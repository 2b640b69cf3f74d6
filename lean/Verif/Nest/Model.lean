/-!
# Model of nested `with`s and cancellation

Sources: `include/boost/cobalt/with.hpp:30-66` (func, then the teardown, the first exception wins),
`detail/with.hpp:58-112,137-151` (the coroutine of `with` has the cancellation slot of the coroutine
that awaits it, and no cancellation state of its own), `concepts.hpp:38-62` (`await_transform`
throws if the coroutine has been cancelled, after the operand has been evaluated),
`detail/promise.hpp` (a promise has its own cancellation state, connected to the slot of the
coroutine that awaits it).

A program is the body of a coroutine: operations and `with`s, one after the other. The function of
a `with` is a coroutine with such a body again; its teardown is a coroutine that awaits a number of
operations. `co_await with(acquire(i), func, teardown)` makes the coroutine of `with`, with the
argument in it, and then `await_transform` is called.

An operation is given what happens while it is pending: whether the whole is cancelled meanwhile,
and how the operation ends. All coroutines that wait for it have been cancelled then.

Simplifications: bodies have no loops and catch nothing; results are left out; nobody resets
cancellation states or turns `throw_if_cancelled` off; cancellations are of a type that the states
let through and arrive while an operation is pending (everything is on one thread); the teardown
does not change the exception (see C24).
-/
namespace Cobalt.Nest

/-- `operation_aborted` -/
def abt : Nat := 125

inductive Prog where
  /-- the end of the coroutine -/
  | done
  /-- an exception -/
  | fail (x : Nat)
  /-- an operation is awaited -/
  | op (k : Prog)
  /-- `co_await with(…)`, with an argument `i` and a teardown of `t` operations -/
  | with_ (i : Nat) (body : Prog) (t : Nat) (k : Prog)
deriving DecidableEq, Repr

/-- What happens to an operation. -/
structure In where
  cancel : Bool
  /-- `none`: it succeeds -/
  res : Option Nat
deriving DecidableEq, Repr

inductive Act where
  /-- the argument of `with` is there -/
  | opened (i : Nat)
  | raise (x : Nat)
  /-- the teardown is called -/
  | tear (i : Nat) (e : Option Nat)
  /-- the teardown has ended -/
  | torn (i : Nat)
  /-- the coroutine of `with` is forgotten, with its argument -/
  | leak (i : Nat)
deriving DecidableEq, Repr

structure R where
  tr : List Act
  /-- `none`: an operation is pending; else how it ended -/
  out : Option (Option Nat)
  /-- it was cancelled meanwhile -/
  can : Bool
  rest : List In
deriving DecidableEq, Repr

/-- A teardown with `n` operations to go; `c`: it has been cancelled (concepts.hpp:46-57). -/
def runTear : Nat → Bool → List In → R
  | 0, _, ins => ⟨[], some none, false, ins⟩
  | _ + 1, true, ins => ⟨[.raise abt], some (some abt), false, ins⟩
  | _ + 1, false, [] => ⟨[], none, false, []⟩
  | n + 1, false, i :: ins =>
    match i.res with
    | some x => ⟨[.raise x], some (some x), i.cancel, ins⟩
    | none =>
      let r := runTear n i.cancel ins
      ⟨r.tr, r.out, i.cancel || r.can, r.rest⟩

/-- `if (!e) e = std::current_exception();` (with.hpp:57-63) -/
def first : Option Nat → Option Nat → Option Nat
  | some x, _ => some x
  | none, e => e

/-- A coroutine; `c`: it has been cancelled. -/
def Prog.run : Prog → Bool → List In → R
  | .done, _, ins => ⟨[], some none, false, ins⟩
  | .fail x, _, ins => ⟨[.raise x], some (some x), false, ins⟩
  | .op _, true, ins => ⟨[.raise abt], some (some abt), false, ins⟩
  | .op _, false, [] => ⟨[], none, false, []⟩
  | .op k, false, i :: ins =>
    match i.res with
    | some x => ⟨[.raise x], some (some x), i.cancel, ins⟩
    | none =>
      let r := k.run i.cancel ins
      ⟨r.tr, r.out, i.cancel || r.can, r.rest⟩
  | .with_ i _ _ _, true, ins =>
    ⟨[.opened i, .leak i, .raise abt], some (some abt), false, ins⟩
  | .with_ i b t k, false, ins =>
    let rb := b.run false ins
    match rb.out with
    | none => ⟨.opened i :: rb.tr, none, rb.can, rb.rest⟩
    | some e =>
      let rt := runTear t false rb.rest
      match rt.out with
      | none => ⟨.opened i :: (rb.tr ++ .tear i e :: rt.tr), none, rb.can || rt.can, rt.rest⟩
      | some e' =>
        match first e e' with
        | some x => ⟨.opened i :: (rb.tr ++ .tear i e :: (rt.tr ++ [.torn i])), some (some x),
            rb.can || rt.can, rt.rest⟩
        | none =>
          let rk := k.run (rb.can || rt.can) rt.rest
          ⟨.opened i :: (rb.tr ++ .tear i e :: (rt.tr ++ .torn i :: rk.tr)), rk.out,
            rb.can || rt.can || rk.can, rk.rest⟩

end Cobalt.Nest
