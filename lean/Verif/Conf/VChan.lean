import Verif.VChan.Model
/-!
# The model of `channel<void>` against the tests of the repository

Source: `/repo/test/channel.cpp`. Tests of the model, as in `Verif.Conf.Chan`.
-/
namespace Cobalt.Conf.V
open VChan (Obs)

structure H where
  ch : VChan.St
  act : List Bool := []
  seq : List Nat := []

def label : Obs → Option (Bool × Nat)
  | .doneR i .ok => some (true, 11 + i)
  | .doneW i .ok => some (false, 1 + i)
  | _ => none

def H.ev (h : H) (es : List VChan.Ev) : H :=
  let ch := h.ch.steps es
  let new := (ch.log.drop h.ch.log.length).filterMap label
  { ch, act := new.map (·.1) ++ h.act, seq := h.seq ++ new.map (·.2) }

def H.go (n : Nat) (h : H) : Bool → H
  | true => if h.ch.nextR < n then h.ev [.mkR, .awaitR h.ch.nextR true false []] else h
  | false => if h.ch.nextW < n then h.ev [.mkW, .awaitW h.ch.nextW true false []] else h

def H.run (n : Nat) : Nat → H → H
  | 0, h => h
  | fuel + 1, h =>
    match h.act with
    | b :: rest => H.run n fuel ({ h with act := rest }.go n b)
    | [] => if h.ch.posted = [] then h else H.run n fuel (h.ev [.run 0])

def H.begin (n : Nat) : Nat → H → H
  | 0, h => h
  | fuel + 1, h =>
    match h.act with
    | b :: rest => H.begin n fuel ({ h with act := rest }.go n b)
    | [] => h

def H.start (h : H) (b : Bool) : H :=
  H.begin 7 40 { h with act := [b], seq := h.seq ++ [if b then 10 else 0] }

def both (cap : BitVec 64) (first : Bool) : H := H.run 7 80 ((H.start { ch := VChan.St.init cap } first).start !first)

/-- `void_` (test/channel.cpp:49-76) -/
example : (both 2 true).seq = [10, 0, 1, 2, 11, 12, 3, 4, 13, 14, 5, 6, 15, 16, 7, 17] := by decide

/-- `void_0` (test/channel.cpp:78-105) -/
example : (both 0 true).seq = [10, 0, 11, 1, 12, 2, 13, 3, 14, 4, 15, 5, 16, 6, 17, 7] := by decide

/-- `interrupt_0_void` and `interrupt_1_void` (test/channel.cpp:386-420) -/
def interrupted (cap : BitVec 64) (n : Nat) : VChan.St :=
  (VChan.St.init cap).steps ((List.range n).flatMap (fun i => [.mkW, .awaitW i true false []]) ++
    [.mkR, .intR 0, .awaitR 0 true false [], .intR 0, .run 0])

example : Obs.doneR 0 .aborted ∈ (interrupted 0 1).log ∧ Obs.doneW 0 .ok ∉ (interrupted 0 1).log ∧
    Obs.doneR 1 .ok ∈ ((interrupted 0 1).steps [.mkR, .awaitR 1 true false [], .run 0]).log ∧
    Obs.doneW 0 .ok ∈ ((interrupted 0 1).steps [.mkR, .awaitR 1 true false [], .run 0]).log := by decide

example : Obs.doneR 0 .aborted ∈ (interrupted 1 2).log ∧ Obs.doneW 1 .ok ∉ (interrupted 1 2).log ∧
    Obs.doneR 1 .ok ∈ ((interrupted 1 2).steps [.mkR, .awaitR 1 true false [], .run 0]).log ∧
    Obs.doneW 1 .ok ∈ ((interrupted 1 2).steps [.mkR, .awaitR 1 true false [], .run 0]).log ∧
    Obs.doneR 2 .ok ∈ ((interrupted 1 2).steps [.mkR, .awaitR 1 true false [], .run 0, .mkR, .awaitR 2 true false []]).log := by
  decide

end Cobalt.Conf.V
