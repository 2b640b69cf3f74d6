import Verif.Lock.Model
/-!
# Model of coroutines that use several semaphores

```
cobalt::channel<void> sem_0{k_0}, sem_1{k_1}, ...;
// each coroutine, in some order:
co_await sem_j.write();   // take j
co_await sem_j.read();    // give j back
```

Each semaphore is the model of `Verif/Lock/Model.lean` (a `channel<void>`, include/boost/cobalt/channel.hpp:209-321,
include/boost/cobalt/impl/channel.hpp:326-426, src/channel.cpp). A coroutine runs its commands one after the other; it
does nothing while it is suspended.

Simplified: nobody is cancelled and no channel is closed. The executor may run what is posted for different channels in
any order, and what is posted for one too.
-/
namespace Cobalt.Dead

inductive Cmd where
  | take (j : Nat)
  | give (j : Nat)
deriving DecidableEq, Repr

structure St where
  /-- The semaphores. -/
  lk : Nat → Lock.St
  /-- What the coroutines have still to do. -/
  prog : Nat → List Cmd
  /-- The semaphore a coroutine took last. -/
  on : Nat → Nat := fun _ => 0

def upd {α : Type} (f : Nat → α) (i : Nat) (x : α) : Nat → α := fun j => if j = i then x else f j

theorem upd_apply {α : Type} (f : Nat → α) (i : Nat) (x : α) (j : Nat) : upd f i x j = if j = i then x else f j := rfl

def isWait : Lock.Phase → Bool
  | .wait _ => true
  | _ => false

/-- Coroutine `u` is suspended in the `write` it made last. -/
def St.blocked (s : St) (u : Nat) : Bool := isWait ((s.lk (s.on u)).ph u)

inductive Ev where
  /-- Coroutine `u` executes its next command; `conn`: its cancellation slot is connected. -/
  | go (u : Nat) (conn : Bool)
  /-- The executor runs the `m`-th resumption posted for semaphore `j`. -/
  | run (j m : Nat)
deriving DecidableEq, Repr

/-- Coroutine `u` executes a command, and `p` is left. -/
def St.cmd (s : St) (u : Nat) (conn : Bool) : List Cmd → St
  | [] => s
  | .take j :: p =>
    { s with lk := upd s.lk j ((s.lk j).step (.acquire u conn)), prog := upd s.prog u p, on := upd s.on u j }
  | .give j :: p => { s with lk := upd s.lk j ((s.lk j).step (.release u conn)), prog := upd s.prog u p }

def St.step (s : St) : Ev → St
  | .go u conn => if s.blocked u then s else s.cmd u conn (s.prog u)
  | .run j m => { s with lk := upd s.lk j ((s.lk j).step (.run m)) }

/-- `users` coroutines with the commands `prog`, semaphore `j` for `k j` of them. -/
def St.init (users : Nat) (k : Nat → BitVec 64) (prog : Nat → List Cmd) : St :=
  { lk := fun j => Lock.St.init (k j) users, prog }

def St.steps (s : St) : List Ev → St
  | [] => s
  | e :: es => (s.step e).steps es

def exec (users : Nat) (k : Nat → BitVec 64) (prog : Nat → List Cmd) (es : List Ev) : St :=
  (St.init users k prog).steps es

end Cobalt.Dead
