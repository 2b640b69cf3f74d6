import Verif.Comb.Model
/-!
# The model of `race`, `gather` and `join` against the tests of the repository

Source: `/repo/test/{race,left_race,gather,join}.cpp` and the awaitables of `/repo/test/test.hpp:139-290`. Tests of the
model, as in `Verif.Conf.Chan`. A child is there at once or waits for a timer; the timers fire in the order of their times.
A promise that is interrupted ends the await at once, an operation that is sent a signal ends it when the executor comes to it.
-/
namespace Cobalt.Conf.C
open Comb (Cfg St Ev Out Res Frame)

inductive Kid where
  /-- ready at once -/
  | now (o : Out)
  /-- not ready, and resumed within its `await_suspend` (`immediate_bool`, `immediate_handle`) -/
  | sync (o : Out)
  | timer (t : Nat) (o : Out)
deriving DecidableEq

abbrev detached : Out := .err 9
abbrev aborted : Out := .err 5

/-- When the await of child `i` ends, if it is waiting. -/
def due (s : St) (k : List Kid) (i : Nat) : Option (Nat × Nat × Out) :=
  if s.child i = .waiting then
    match k[i]? with
    | some (.timer t o) => some (if s.sent.any (·.1 == i) then (0, i, aborted) else (t, i, o))
    | _ => none
  else none

/-- The first of two timers. -/
def earlier (a b : Option (Nat × Nat × Out)) : Option (Nat × Nat × Out) :=
  match a, b with
  | some x, some y => if y.1 < x.1 then some y else some x
  | none, y => y
  | x, none => x

/-- What happens next. -/
def nextEv (c : Cfg) (k : List Kid) (s : St) : Option Ev :=
  match s.stack with
  | .asking i :: _ => match k[i]? with
    | some (.now o) => some (.ready i o false)
    | _ => some (.notReady i)
  | .starting i :: _ => match k[i]? with
    | some (.sync o) => if s.child i = .waiting then some (.fin i o) else some (.ret false)
    | _ => some (.ret false)
  | .intr i _ _ :: _ => if s.child i = .waiting then some (.fin i detached) else some (.ret false)
  | .emit .. :: _ => some (.ret false)
  | [] => if s.phase = .suspended then
      (((List.range c.n).map (due s k)).foldl earlier none).map (fun x => .fin x.2.1 x.2.2)
    else none

def settle (c : Cfg) (k : List Kid) : Nat → St → St
  | 0, s => s
  | f + 1, s => match nextEv c k s with
    | none => s
    | some e => settle c k f (s.step c e)

/-- The combinator is awaited: what it gives, if it gives something. -/
def result (c : Cfg) (k : List Kid) : Option Res :=
  let s := settle c k 100 (({} : St).step c .begin)
  if s.ub then some .undefined
  else if s.phase = .resumed ∨ s.phase = .direct then some (s.resume c) else none

/-- What the await of child `i` gave: ended by its timer or otherwise? -/
def state (c : Cfg) (k : List Kid) : St := settle c k 100 (({} : St).step c .begin)

/-- All orders of the members of `l`. -/
def orders : List Nat → List (List Nat)
  | [] => [[]]
  | a :: l => (orders l).flatMap fun m => (List.range (m.length + 1)).map fun i => m.take i ++ a :: m.drop i

def ms (t : Nat) : Kid := .timer t (.ok t)
def race (n : Nat) (order : List Nat := List.range n) (ranged : Bool := false) : Cfg := { kind := .race, n, order, ranged }
def all (k : Comb.Kind) (n : Nat) : Cfg := { kind := k, n, order := List.range n }

/-- `race_/variadic` (race.cpp:53-76), for every order in which the four may be started: the second wins with 50. -/
example : ∀ o ∈ orders (List.range 4), result (race 4 o) [ms 100, ms 50, ms 100000, .timer 50000 (.ok 123)] =
    some (.winner 1 (some 50)) := by decide

/-- `left_race_/variadic` (left_race.cpp:40-60). The losers are interrupted and not sent a signal, so the
promises go on (`100 == co_await d1`). -/
example : result (race 4) [ms 100, ms 50, ms 100000, .timer 50000 (.ok 123)] = some (.winner 1 (some 50)) ∧
    (state (race 4) [ms 100, ms 50, ms 100000, .timer 50000 (.ok 123)]).sent = [] := by decide

/-- `list_1u` to `list_9u` (race.cpp:79-110) and `left_race_/list` (left_race.cpp:62-83). -/
example : ∀ o ∈ orders (List.range 3), result (race 3 o true) [ms 100, ms 50, ms 100000] = some (.winner 1 (some 50)) := by
  decide

/-- `dummy_result` (race.cpp:123-131) -/
example : result (race 1 [0] true) [.now (.ok 42)] = some (.winner 0 (some 42)) := by decide

/-- `stop_` (race.cpp:135-140): `stop()` never ends. -/
example : result (race 2) [ms 10, .timer 1000000 (.err 0)] = some (.winner 0 (some 10)) := by decide

/-- `compliance` (race.cpp:142-173, left_race.cpp:103-139): an awaitable that is ready, one resumed within `await_suspend`,
one that is posted. They have no `interrupt_await` and give nothing. -/
example : ∀ k ∈ [Kid.now (.ok 0), .sync (.ok 0), .timer 0 (.ok 0)], ∀ o ∈ [[0, 1], [1, 0]],
    result { race 2 o with intr := fun i => i == 0, void := fun i => i == 1 } [ms 100000, k] = some (.winner 1 (some 0)) := by
  decide

/-- `immediate_timer` (left_race.cpp:140-146): the operation cannot be interrupted, it is sent a signal. -/
example : result { race 2 with intr := fun _ => false, void := fun _ => true, allVoid := true } [.timer 1000000 (.ok 0), .now (.ok 0)] =
    some (.winner 1 none) ∧
    (state { race 2 with intr := fun _ => false, void := fun _ => true, allVoid := true } [.timer 1000000 (.ok 0), .now (.ok 0)]).sent =
      [(0, 7)] := by decide

/-- `compliance_ranged` (left_race.cpp:148-156) -/
example : ∀ k ∈ [Kid.now (.ok 0), .sync (.ok 0), .timer 0 (.ok 0)], ∀ n ∈ [1, 3],
    result { race n with intr := fun _ => false, void := fun _ => true, allVoid := true, ranged := true } (List.replicate n k) =
      some (.winner 0 none) := by decide

/-- `gather_/variadic` (gather.cpp:48-75) -/
example : result (all .gather 5) [ms 100, ms 50, ms 150, .timer 25 (.ok 123), .now (.err 1)] =
    some (.values [.ok 100, .ok 50, .ok 150, .ok 123, .err 1]) := by decide

/-- `gather_/list`, `list_result`, `list_tuple` (gather.cpp:77-160) -/
example : result (all .gather 4) [ms 100, ms 50, ms 150, .now (.err 1)] =
    some (.values [.ok 100, .ok 50, .ok 150, .err 1]) := by decide

/-- `join_/variadic` (join.cpp:58-72) -/
example : result (all .join 4) [ms 100, ms 50, ms 150, .timer 25 (.ok 123)] =
    some (.values [.ok 100, .ok 50, .ok 150, .ok 123]) := by decide

/-- `variadic_throw` (join.cpp:74-85) -/
example : result (all .join 5) [ms 100, ms 50, ms 150, .timer 25 (.ok 123), .now (.err 1)] = some (.thrown 1) := by decide

/-- `list`, `list_result`, `list_tuple` (join.cpp:87-145) -/
example : result (all .join 3) [ms 100, ms 50, ms 150] = some (.values [.ok 100, .ok 50, .ok 150]) := by decide

/-- `list_exception` (join.cpp:102-112) -/
example : result (all .join 2) [.now (.err 1), .timer 1000000 (.ok 0)] = some (.thrown 1) := by decide

/-- `exception_after_post`, `exception_after_list` (join.cpp:147-170) -/
example : result (all .join 2) [.timer 0 (.err 1), .timer 1000000 (.ok 0)] = some (.thrown 1) ∧
    result (all .join 2) [.timer 1000000 (.ok 0), .timer 0 (.err 1)] = some (.thrown 1) := by decide

/-- `compliance` (join.cpp:172-210, gather.cpp:164-200) -/
example : ∀ k ∈ [Kid.now (.ok 0), .sync (.ok 0), .timer 0 (.ok 0)], ∀ d ∈ [Comb.Kind.join, .gather],
    result { all d 2 with intr := fun i => i == 0, void := fun i => i == 1 } [ms 1, k] = some (.values [.ok 1, .ok 0]) := by
  decide

end Cobalt.Conf.C
