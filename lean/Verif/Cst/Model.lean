/-!
# Model of the cancellation state of a coroutine

Sources: `include/boost/cobalt/this_coro.hpp` (`promise_cancellation_base`,
`promise_throw_if_cancelled_base`), `include/boost/cobalt/concepts.hpp` (`enable_awaitables`),
`include/boost/cobalt/op.hpp` (`enable_await_deferred`).

`asio::cancellation_state` is not part of the sources; it is modelled after its
documentation and implementation: it puts a handler into the slot that replaces the one
there, and the handler stores what the in-filter makes of a cancellation (replacing what was
stored) and emits what the out-filter makes of that, if anything.

Simplifications: sources are numbers, and no one else uses their slots. A source that is not
connected is `none`.
-/
namespace Cobalt.Cst

/-- `asio::cancellation_type` -/
structure CT where
  terminal : Bool := false
  partial_ : Bool := false
  total : Bool := false
deriving DecidableEq, Repr

/-- `cancellation_type::none` -/
def CT.none_ : CT := {}

abbrev Filter := CT → CT

/-- `asio::enable_terminal_cancellation` -/
def enableTerminal : Filter := fun c => { terminal := c.terminal }

/-- `asio::enable_partial_cancellation` -/
def enablePartial : Filter := fun c => { terminal := c.terminal, partial_ := c.partial_ }

/-- `asio::enable_total_cancellation` -/
def enableTotal : Filter := fun c => c

/-- `asio::disable_cancellation` -/
def disableAll : Filter := fun _ => .none_

/-- What happens, in order. -/
inductive Ev where
  /-- a cancellation is emitted on a source -/
  | emit (src : Nat) (c : CT)
  /-- `co_await this_coro::reset_cancellation_state()` and with one and two filters -/
  | reset0
  | reset1 (f : Filter)
  | reset2 (inF outF : Filter)
  /-- `reset_cancellation_source` -/
  | source (src : Option Nat)
  /-- `co_await this_coro::throw_if_cancelled(b)` -/
  | throwIf (b : Bool)

/-- What is awaited. -/
inductive Await where
  /-- an awaitable -/
  | awaitable
  /-- an operation made by `asio::deferred` -/
  | deferred
  /-- something of `this_coro` -/
  | thisCoro
deriving DecidableEq, Repr

/-- `source_`, `state_` and `throw_if_cancelled_`; what was emitted to the operations the
coroutine waits for. -/
structure St where
  src : Option Nat
  inF : Filter
  outF : Filter
  cancelled : CT := .none_
  throwIf : Bool := true
  out : List CT := []

/-- After the constructor of a promise: a source, and one filter for both ways
(this_coro.hpp:96-98; `DefaultFilter` of `reset_cancellation_source`, 147-152). -/
def St.start (src : Option Nat) (f : Filter) : St := { src := src, inF := f, outF := f }

/-- `state_ = asio::cancellation_state(source_, …)`. -/
def St.renew (s : St) (inF outF : Filter) : St :=
  { s with inF := inF, outF := outF, cancelled := .none_ }

/-- One event; `dflt` is `DefaultFilter`. -/
def St.step (dflt : Filter) (s : St) : Ev → St
  | .emit src c =>
    if s.src = some src then
      let c := s.inF c
      let o := s.outF c
      { s with cancelled := c, out := if o = .none_ then s.out else s.out ++ [o] }
    else s
  | .reset0 => s.renew dflt dflt
  | .reset1 f => s.renew f f
  | .reset2 i o => s.renew i o
  | .source src => { s with src := src }.renew dflt dflt
  | .throwIf b => { s with throwIf := b }

def St.run (dflt : Filter) (s : St) (es : List Ev) : St := es.foldl (St.step dflt) s

/-- `this_coro::cancelled` -/
def St.isCancelled (s : St) : Bool := s.src.isSome && s.cancelled ≠ .none_

/-- `await_transform` throws: of an awaitable (concepts.hpp:41-59), of a deferred operation
(op.hpp:197-216), of something of `this_coro`. -/
def St.throws (s : St) : Await → Bool
  | .awaitable => s.isCancelled && s.throwIf
  | .deferred => false
  | .thisCoro => false

end Cobalt.Cst
