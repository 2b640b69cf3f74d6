/-!
# Model of sleeping and timers

Sources: `include/boost/cobalt/io/sleep.hpp`, `src/io/sleep.cpp`,
`include/boost/cobalt/io/steady_timer.hpp`, `src/io/steady_timer.cpp`,
`include/boost/cobalt/io/system_timer.hpp`, `src/io/system_timer.cpp`.

Simplifications: clocks count nanoseconds in 64 bits, as those of libstdc++ and libc++ do.
Durations and time points with a floating point count are not modelled. That of a duration
given is a 64 bit integer; a smaller one is a special case, since the library computes with 64
bits. `std::chrono` and asio's timers are modelled after the standard and asio's documentation
and sources: `expires_after` adds with saturation, a wait ends with success when the clock has
reached the expiry and the reactor has looked, a change of the expiry aborts the pending
waits.
-/
namespace Cobalt.Time

/-- Smallest and greatest count. -/
def lo : Int := -(2 ^ 63)
def hi : Int := 2 ^ 63 - 1

/-- The result of 64 bit signed arithmetic, `none` being the undefined behaviour of an
overflow. -/
def chk (x : Int) : Option Int := if lo ≤ x ∧ x ≤ hi then some x else none

/-- What the usual hardware makes of an overflow. -/
def wrap (x : Int) : Int := (x + 2 ^ 63) % 2 ^ 64 - 2 ^ 63

/-- A period `std::ratio<num, den>` in seconds. -/
structure Period where
  num : Nat
  den : Nat
deriving DecidableEq, Repr

/-- Numerator and denominator of `ratio_divide<Period, nano>`. -/
def Period.cn (p : Period) : Nat := p.num * 10 ^ 9 / Nat.gcd (p.num * 10 ^ 9) p.den
def Period.cd (p : Period) : Nat := p.den / Nat.gcd (p.num * 10 ^ 9) p.den

/-- `std::chrono::duration_cast<nanoseconds>` ([time.duration.cast]): multiplies, then divides
with truncation. With a factor of 1 the standard leaves the step out. -/
def cast (p : Period) (count : Int) : Option Int :=
  (chk (count * p.cn)).map (·.tdiv p.cd)

/-- The expiry of `sleep(duration)` (sleep.hpp:76-80, 60; sleep.cpp:14) called at `now`. -/
def sleepFor (now : Int) (p : Period) (count : Int) : Option Int :=
  (cast p count).bind fun du => chk (now + du)

/-- The expiry of `sleep(time_point)` (sleep.hpp:61-74; sleep.cpp:13, 16). -/
def sleepUntil (p : Period) (count : Int) : Option Int := cast p count

/-- An awaited sleep can end at `t` if it is awaited at `t1`: `ready` (sleep.hpp:25-29, 43-47)
ends it at once, otherwise the timer made by `initiate` (sleep.cpp:20-30) when the clock
has reached the expiry. -/
def EndsAt (tp t1 t : Int) : Prop :=
  if tp < t1 then t = t1 else tp ≤ t ∧ t1 ≤ t

/-- `expires_after` of asio's timers: addition with saturation. -/
def satAdd (t d : Int) : Int :=
  if 0 ≤ t then if hi - t < d then hi else t + d
  else if -(t - lo) > d then lo else t + d

/-! ## Timers -/

/-- How a wait ends. -/
inductive Res where
  | ok
  | aborted
deriving DecidableEq, Repr

/-- A wait handed to asio, with a ghost: the expiry when it was started. -/
structure Wait where
  id : Nat
  expiry : Int
deriving DecidableEq, Repr

/-- What happens, with the time of the clock. -/
inductive Obs where
  | started (id : Nat) (expiry : Int) (now : Int)
  | ended (id : Nat) (r : Res) (now : Int)
  /-- a call which aborts waits -/
  | stopped
deriving DecidableEq, Repr

/-- An `io::steady_timer` or `io::system_timer`, with the clock it uses. -/
structure Timer where
  now : Int
  expiry : Int
  pending : List Wait := []
  /-- number of waits started -/
  next : Nat := 0
  log : List Obs := []
deriving DecidableEq, Repr

/-- What can happen. -/
inductive Ev where
  /-- the clock shows `t`; that of a `system_timer` may be set back -/
  | clock (t : Int)
  /-- `co_await t.wait()` -/
  | wait
  /-- the reactor looks at its timers -/
  | poll
  | cancel
  /-- the wait itself is cancelled, through the slot of its handler -/
  | cancelWait (id : Nat)
  | resetAt (tp : Int)
  | resetAfter (d : Int)
deriving DecidableEq, Repr

/-- All pending waits end so. -/
def Timer.endAll (s : Timer) (r : Res) : Timer :=
  { s with pending := [], log := s.log ++ s.pending.map (fun w => .ended w.id r s.now) }

/-- asio's `cancel`: the pending waits are aborted. -/
def Timer.abort (s : Timer) : Timer :=
  { s with log := s.log ++ [.stopped] : Timer }.endAll .aborted

/-- `expired` (steady_timer.cpp:38, system_timer.cpp:37) -/
def Timer.expired (s : Timer) : Bool := s.expiry < s.now

/-- One event. -/
def Timer.step (s : Timer) : Ev → Timer
  | .clock t => { s with now := t }
  -- wait_op with `try_wait_` (steady_timer.cpp:45-50) and `initiate_wait_` (:40-43)
  | .wait =>
    let s' : Timer := { s with next := s.next + 1, log := s.log ++ [.started s.next s.expiry s.now] }
    if s.expiry < s.now then { s' with log := s'.log ++ [.ended s.next .ok s.now] }
    else { s' with pending := s.pending ++ [⟨s.next, s.expiry⟩] }
  | .poll => if s.expiry ≤ s.now then s.endAll .ok else s
  -- steady_timer.cpp:17-20
  | .cancel => s.abort
  | .cancelWait id =>
    { s with
      pending := s.pending.filter (fun w => w.id ≠ id)
      log := s.log ++ .stopped ::
        (s.pending.filter (fun w => w.id = id)).map (fun w => .ended w.id .aborted s.now) }
  -- steady_timer.cpp:28-31
  | .resetAt tp => { s.abort with expiry := tp }
  -- steady_timer.cpp:33-36
  | .resetAfter d => { s.abort with expiry := satAdd s.now d }

def Timer.run (s : Timer) (es : List Ev) : Timer := es.foldl Timer.step s

end Cobalt.Time
