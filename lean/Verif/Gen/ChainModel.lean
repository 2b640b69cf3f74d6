import Verif.Gen.ForModel
/-!
# Model of a chain of generators

Sources: those of `Gen/Model.lean` and `Gen/ForModel.lean`.

Generator `0` is the source. For `k < n` the body of generator `k + 1` is

    BOOST_COBALT_FOR(v, g_k) for (auto w : f_k(v)) co_yield w;
    co_return r_k();

where what `f_k` and `r_k` give may depend on the values the body has seen before, and a coroutine that is no generator loops over generator `n`. Each generator may begin with
`co_await this_coro::initial`, before anybody can await it.

Simplifications:
* `f_k` and `r_k` do not throw. A body is at the loop, at its `co_yield` or at its end; what happens
  between two events can be in any order.
* Nobody interrupts an await and nothing is destroyed.
-/
namespace Cobalt.Gen.Chain

open Prom (upd upd_apply)

/-- What the coroutines compute. `f k p v`: what stage `k` yields for `v` if it has seen `p` before. `r k p`: what it returns
if it has seen `p`. `lz k`: generator `k` begins with `initial`. -/
structure Cfg where
  n : Nat
  f : Nat → List Nat → Nat → List Nat
  r : Nat → List Nat → Nat
  lz : Nat → Bool

structure St where
  /-- the loop over generator `k`, with the generator -/
  l : Nat → For.St
  /-- how many values the body of generator `k + 1` has yielded -/
  sent : Nat → Nat := fun _ => 0

def new (c : Cfg) : St :=
  { l := fun k => if c.lz k then For.St.run true [.other .initial] else For.St.run true [] }

/-- What the source does. -/
inductive Src where
  | yield (v : Nat)
  | ret (v : Nat)
  | throw (x : Nat)
deriving DecidableEq, Repr

def Src.ev : Src → Gen.Ev
  | .yield v => .yield v
  | .ret v => .ret v
  | .throw x => .throw x

inductive Ev where
  | src (a : Src)
  /-- the executor runs what was posted by the await of generator `k` -/
  | run (k : Nat)
  /-- the body with the loop over generator `k` goes on -/
  | go (k : Nat)
deriving DecidableEq, Repr

/-- The number of an exception. Only those of the source occur: see `C109_proper`. -/
def code : Err → Nat
  | .user x => x
  | _ => 0

/-- What the body with the loop over generator `k` does next: to its loop, or to the generator
it is the body of. -/
inductive Act where
  | turn
  | own (e : Gen.Ev)
  | wait
deriving DecidableEq, Repr

/-- What a body has to yield for the values it sees next if it has seen `p`. -/
def madeFrom (f : List Nat → Nat → List Nat) (p : List Nat) : List Nat → List Nat
  | [] => []
  | v :: vs => f p v ++ madeFrom f (p ++ [v]) vs

/-- What it has to yield for all it has seen. -/
def made (f : List Nat → Nat → List Nat) (vs : List Nat) : List Nat := madeFrom f [] vs

def act (c : Cfg) (s : St) (k : Nat) : Act :=
  match if k < c.n then (made (c.f k) (s.l k).seen).drop (s.sent k) else [] with
  | v :: _ => .own (.yield v)
  | [] =>
    match (s.l k).phase with
    | .head => .turn
    | .finished => if k < c.n then .own (.ret (c.r k (s.l k).seen)) else .wait
    | .thrown e => if k < c.n then .own (.throw (code e)) else .wait
    | _ => .wait

/-- Which events are possible. A body other than the last goes on only if its generator lets it
run. -/
def can (c : Cfg) (s : St) : Ev → Bool
  | .src a => (s.l 0).can (.other a.ev)
  | .run k => decide (k ≤ c.n) && (s.l k).can (.other .run)
  | .go k => decide (k ≤ c.n) && (act c s k != .wait) && (k == c.n || (s.l (k + 1)).g.phase == .running)

/-- One loop does something. -/
def St.on (s : St) (k : Nat) (e : For.Ev) : St := { s with l := upd s.l k ((s.l k).step e) }

/-- The body yields, returns or throws. -/
def St.own (s : St) (k : Nat) (e : Gen.Ev) : St :=
  match e with
  | .yield _ => { s.on (k + 1) (.other e) with sent := upd s.sent k (s.sent k + 1) }
  | _ => s.on (k + 1) (.other e)

def go (c : Cfg) (s : St) : Ev → St
  | .src a => s.on 0 (.other a.ev)
  | .run k => s.on k (.other .run)
  | .go k =>
    match act c s k with
    | .turn => s.on k .turn
    | .own e => s.own k e
    | .wait => s

def step (c : Cfg) (s : St) (e : Ev) : St := if can c s e then go c s e else s

def steps (c : Cfg) (s : St) (es : List Ev) : St := es.foldl (step c) s

def run (c : Cfg) (es : List Ev) : St := steps c (new c) es

/-- A possible history. -/
def Legal (c : Cfg) : St → List Ev → Prop
  | _, [] => True
  | s, e :: es => can c s e = true ∧ Legal c (step c s e) es

instance Legal.dec (c : Cfg) : ∀ (s : St) (es : List Ev), Decidable (Legal c s es)
  | _, [] => isTrue trivial
  | s, e :: es =>
    haveI := Legal.dec c (step c s e) es
    inferInstanceAs (Decidable (can c s e = true ∧ Legal c (step c s e) es))

/-- Nothing is possible but that the source goes on. -/
def Quiet (c : Cfg) (s : St) : Prop := ∀ e, (∀ a, e ≠ .src a) → can c s e = false

end Cobalt.Gen.Chain
