import Verif.Chan.Model
/-!
# The channel model against the tests of the repository

Source: `/repo/test/channel.cpp`. These are tests of the model, not proofs about it: the programs of the tests are run on
`Verif.Chan.Model` with an executor that runs what was posted in order, and the sequence of labels is compared with the one
the test expects of the code.
-/
namespace Cobalt.Conf
open Chan (Obs)

/-- A reader and a writer, each with `n` operations. -/
structure H where
  ch : Chan.St
  /-- the coroutines that go on, `true` the reader -/
  act : List Bool := []
  seq : List Nat := []

/-- The labels the tests push when an operation has ended: 11, 12, … the reader, 1, 2, … the writer. -/
def label : Obs → Option (Bool × Nat)
  | .doneR i (.value _) => some (true, 11 + i)
  | .doneW i .ok => some (false, 1 + i)
  | _ => none

/-- Something happens at the channel: whose operation ends goes on. -/
def H.ev (h : H) (es : List Chan.Ev) : H :=
  let ch := h.ch.steps es
  let new := (ch.log.drop h.ch.log.length).filterMap label
  { ch, act := new.map (·.1) ++ h.act, seq := h.seq ++ new.map (·.2) }

def H.go (n : Nat) (h : H) : Bool → H
  | true => if h.ch.nextR < n then h.ev [.mkR, .awaitR h.ch.nextR true false []] else h
  | false => if h.ch.nextW < n then h.ev [.mkW, .awaitW h.ch.nextW true false []] else h

/-- Until nobody goes on and nothing is posted. -/
def H.run (n : Nat) : Nat → H → H
  | 0, h => h
  | fuel + 1, h =>
    match h.act with
    | b :: rest => H.run n fuel ({ h with act := rest }.go n b)
    | [] => if h.ch.posted = [] then h else H.run n fuel (h.ev [.run 0])

/-- A coroutine begins, and runs until it waits; nothing posted is run meanwhile. -/
def H.begin (n : Nat) : Nat → H → H
  | 0, h => h
  | fuel + 1, h =>
    match h.act with
    | b :: rest => H.begin n fuel ({ h with act := rest }.go n b)
    | [] => h

def H.start (h : H) (b : Bool) : H :=
  H.begin 7 40 { h with act := [b], seq := h.seq ++ [if b then 10 else 0] }

/-- `auto r = do_read(chn, seq); auto w = do_write(chn, seq);` or the other way round, then the executor runs. -/
def both (cap : Nat) (first : Bool) : H := H.run 7 80 ((H.start { ch := Chan.St.init cap } first).start !first)

/-- Which values the reads gave. -/
def values (h : H) : List Nat := h.ch.log.filterMap fun | .doneR _ (.value v) => some v | _ => none

/-- `int_` (test/channel.cpp:127-155) -/
example : (both 2 false).seq = [0, 1, 2, 10, 11, 12, 3, 4, 13, 14, 5, 6, 15, 16, 7, 17] := by decide

example : values (both 2 false) = [0, 1, 2, 3, 4, 5, 6] := by decide

/-- `str` (test/channel.cpp:183-210) -/
example : (both 0 false).seq = [0, 10, 1, 11, 2, 12, 3, 13, 4, 14, 5, 15, 6, 16, 7, 17] := by decide

/-! `interrupt_0_int` and `interrupt_1_int` (test/channel.cpp:422-460): one write, or two, wait; a read is interrupted between
`await_ready` and `await_suspend` (test/test.hpp:176-217); then the values are read. -/

def interrupted (cap n : Nat) : Chan.St :=
  (Chan.St.init cap).steps ((List.range n).flatMap (fun i => [.mkW, .awaitW i true false []]) ++
    [.mkR, .intR 0, .awaitR 0 true false [], .intR 0, .run 0])

example : Obs.doneR 0 .aborted ∈ (interrupted 0 1).log ∧ Obs.doneW 0 .ok ∉ (interrupted 0 1).log ∧
    Obs.doneR 1 (.value 0) ∈ ((interrupted 0 1).steps [.mkR, .awaitR 1 true false [], .run 0]).log ∧
    Obs.doneW 0 .ok ∈ ((interrupted 0 1).steps [.mkR, .awaitR 1 true false [], .run 0]).log := by decide

example : Obs.doneR 0 .aborted ∈ (interrupted 1 2).log ∧ Obs.doneW 1 .ok ∉ (interrupted 1 2).log ∧
    Obs.doneR 1 (.value 0) ∈ ((interrupted 1 2).steps [.mkR, .awaitR 1 true false [], .run 0]).log ∧
    Obs.doneW 1 .ok ∈ ((interrupted 1 2).steps [.mkR, .awaitR 1 true false [], .run 0]).log ∧
    Obs.doneR 2 (.value 1) ∈ ((interrupted 1 2).steps [.mkR, .awaitR 1 true false [], .run 0, .mkR, .awaitR 2 true false []]).log := by
  decide

/-- `interrupt_1` (test/channel.cpp:369-382): after a write the channel is full, so a read is ready and a write is not. -/
example : ((Chan.St.init 1).steps [.mkW, .awaitW 0 true true []]).readReady = true ∧
    ((Chan.St.init 1).steps [.mkW, .awaitW 0 true true []]).writeReady = false ∧
    Obs.doneR 0 (.value 0) ∈ ((Chan.St.init 1).steps [.mkW, .awaitW 0 true true [], .mkR, .awaitR 0 true true []]).log := by decide

end Cobalt.Conf
