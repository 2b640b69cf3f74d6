import Verif.Oper.Model

/-!
# What awaiting an operation is expected to do

What an operation does with the handler it was given, without any of the flags.
-/
namespace Cobalt.Oper

/-- What became of the handler. -/
inductive End where
  | kept
  | completed (v : Nat)
  | stored
  | dropped
  | thrown
deriving DecidableEq, Repr

/-- Nothing is done. -/
def Act.idle : Act → Bool
  | .skip => true
  | .seq a b => a.idle && b.idle
  | _ => false

/-- What an operation does with its handler during initiation, provided it follows the
rules of asio: the handler is invoked from work run by the immediate executor only
(`work`), and nothing is done after it is gone. -/
def fate (work : Bool) : Act → Option End
  | .skip => some .kept
  | .seq a b =>
    match fate work a with
    | some .kept => fate work b
    | some .thrown => some .thrown
    | some r => if b.idle then some r else none
    | none => none
  | .exec a => fate true a
  | .attempt a =>
    match fate work a with
    | some .thrown => some .kept
    | r => r
  | .complete v => if work then some (.completed v) else none
  | .store => some .stored
  | .drop => some .dropped
  | .throw => some .thrown

/-- What the context does with a handler that was kept for later: invoke it, hand it to
the immediate executor and run what that has posted, or destroy it. -/
inductive Later where
  | done (v : Nat)
  | dispatch (v : Nat)
  | abandon
deriving DecidableEq, Repr

def Later.apply (s : S) : Later → S
  | .done v => s.later (.complete v)
  | .dispatch v => (s.later (.exec (.complete v))).run
  | .abandon => s.later .drop

/-- An operation from `co_await` to its end: what `ready` stores, what initiation does,
and what happens later (nothing, for `none`). -/
def outcome (ready : Option Nat) (a : Act) (l : Option Later) : S :=
  match l with
  | none => S.await ready a
  | some l => l.apply (S.await ready a)

/-- What `co_await` is to give. -/
def expected (ready : Option Nat) (r : End) (l : Option Later) : List Ret :=
  match ready, r, l with
  | some v, _, _ => [.value v]
  | none, .completed v, _ => [.value v]
  | none, .thrown, _ => [.initFailed]
  | none, .stored, some (.done v) => [.value v]
  | none, .stored, some (.dispatch v) => [.value v]
  | _, _, _ => []

/-- Whether the coroutine is to be destroyed with the handler. -/
def expectedGone (ready : Option Nat) (r : End) (l : Option Later) : Bool :=
  match ready, r, l with
  | some _, _, _ => false
  | none, .kept, _ => true
  | none, .dropped, _ => true
  | none, .stored, some .abandon => true
  | _, _, _ => false

/-- C33 for one operation: no undefined behaviour, `co_await` gives what it is to give and
nothing else, the handler resumes at most once and not also without suspending, and a
coroutine whose handler was destroyed is destroyed. -/
structure Good (ready : Option Nat) (a : Act) (r : End) (l : Option Later) : Prop where
  ub : (outcome ready a l).ub = false
  returned : (outcome ready a l).returned = expected ready r l
  resumed : (outcome ready a l).resumed =
    if (S.await ready a).suspended then (expected ready r l).length else 0
  destroyed : (outcome ready a l).destroyed = expectedGone ready r l

/-- C33 for all operations. -/
def C33Holds : Prop :=
  ∀ ready a r l, fate false a = some r → Good ready a r l

/-- C34 for all operations. -/
def C34Holds : Prop :=
  ∀ a v, fate false a = some (.completed v) → (S.suspend a).early = false

/-- Whether the handler is invoked by work that has run other immediate work before, and
whether the work has done that by its end. `ran`: it has when the script begins. -/
def spoiled (work ran : Bool) : Act → Bool × Bool
  | .seq a b =>
    if fate work a = some .kept then spoiled work (spoiled work ran a).2 b else spoiled work ran a
  | .exec a => ((spoiled true false a).1, true)
  | .attempt a => spoiled work ran a
  | .complete _ => (ran, ran)
  | _ => (false, ran)

/-- An exception leaves work run by the immediate executor. -/
def throwsFromWork : Act → Bool
  | .seq a b => throwsFromWork a || throwsFromWork b
  | .exec a => fate true a = some .thrown || throwsFromWork a
  | .attempt a => throwsFromWork a
  | _ => false

end Cobalt.Oper
