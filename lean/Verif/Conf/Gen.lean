import Verif.Gen.Model
/-!
# The generator model against the tests of the repository

Source: `/repo/test/generator.cpp`. Tests of the model, as in `Verif.Conf.Chan`: the body of the generator is a function of
how often it was suspended and what was pushed, the consumer awaits again and again.
-/
namespace Cobalt.Conf.G
open Gen (St Ev Got)

/-- What the body does next: `n` is the number of its suspensions, `r` what was pushed, oldest first. -/
abbrev Body := (n : Nat) → (r : List Nat) → Ev

structure H where
  g : St
  n : Nat := 0
  /-- number of awaits -/
  a : Nat := 0
  /-- what they gave, or that the generator was false -/
  out : List (Option Got) := []

/-- The body and the executor go on until await `a` has ended, or the generator waits for its consumer. -/
def settle (b : Body) : Nat → H → H
  | 0, h => h
  | f + 1, h =>
    match h.g.phase with
    | .running => settle b f { h with g := h.g.step (b h.n h.g.received.reverse), n := h.n + 1 }
    | .posted => settle b f { h with g := h.g.step .run }
    | _ => h

def got (g : St) (a : Nat) : Option Got := (g.log.find? (·.1 == a)).map (·.2)

/-- `co_await g(p)` -/
def H.await (b : Body) (h : H) (p : Nat) : H :=
  let h := settle b 8 { h with g := h.g.step (.await h.a p) }
  { h with a := h.a + 1, out := h.out ++ [got h.g h.a] }

/-- `while (g) co_await g(p)` with the values to push, at most as many awaits. -/
def H.loop (b : Body) : H → List Nat → H
  | h, [] => h
  | h, p :: ps => if h.g.toBool then H.loop b (h.await b p) ps else h

def start (void : Bool) (b : Body) : H := settle b 8 { g := St.run void [] }

/-- `gen` (test/generator.cpp:23-29) -/
def gen : Body := fun n _ => if n < 10 then .yield n else .ret 10

/-- `generator_int` (:33-56): the first value is there at once, eleven values are delivered, then the generator is false. -/
example : (start true gen).g.ready = true ∧
    ((start true gen).loop gen (List.replicate 20 0)).out = (List.range 11).map (fun i => some (.val i)) ∧
    ((start true gen).loop gen (List.replicate 20 0)).g.toBool = false := by decide

/-- `gen_push` (:59-71) -/
def genPush : Body := fun n r => if n < 10 then .yield (1 + r.sum) else .ret (1 + r.sum)

/-- `generator_push` (:74-89): every await gives what it pushes, and there are eleven (2048 = 2 ^ 11). -/
example : ((start false genPush).loop genPush ((List.range 20).map (2 ^ ·))).out = (List.range 11).map (fun i => some (.val (2 ^ i))) ∧
    ((start false genPush).loop genPush ((List.range 20).map (2 ^ ·))).g.received.reverse = (List.range 10).map (2 ^ ·) := by decide

/-- `eager` (:231-237): its first suspension is `co_await this_coro::initial`. -/
def eager : Body := fun n r => if n = 0 then .initial else if r.sum < 10 then .yield r.sum else .ret r.sum

/-- `eager_2` (:240-255) -/
example : ((start false eager).loop eager [2, 4, 3, 6, 1]).out = [some (.val 2), some (.val 6), some (.val 9), some (.val 15)] ∧
    ((start false eager).loop eager [2, 4, 3]).g.toBool = true ∧ ((start false eager).loop eager [2, 4, 3, 6]).g.toBool = false := by
  decide

end Cobalt.Conf.G
