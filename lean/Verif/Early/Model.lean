/-!
# Model of operations that complete early, awaited by combinators

An operation may complete before it is started: `op::awaitable_base::await_ready` calls `ready` (op.hpp:48-52), which may call
its handler, and that puts the arguments into `result` (detail/handler.hpp:191-194). The model is of operations whose `ready`
takes something: each operation reads from a source, which is a list of values; several may read from the same. `ready` takes
the first value if there is one; `initiate` waits for the next to arrive, in the order of the calls. The operations do not
fail.

A combinator calls `await_ready` of each of its awaitables by itself, and a child coroutine does not call it again
(detail/fork.hpp:176-200). `gather` and `join` of a range call it for all of them before, in the constructor of their
awaitable, and do nothing with the answer (detail/gather.hpp:276-286, detail/join.hpp:354-364).
-/
namespace Cobalt.Early

/-- How the operations are awaited. -/
inductive Form
  | each   -- by `gather` or `join` with several arguments, or one by itself
  | range  -- by `gather` or `join` of a range
  | race
deriving DecidableEq, Repr

structure St where
  src : Nat → List Nat            -- what can be read from each source
  of : Nat → Nat                  -- the source of each operation
  res : Nat → Option Nat := fun _ => none   -- `result` of the awaitable (op.hpp:37)
  out : Nat → Option Nat := fun _ => none   -- what the await of the operation gave to the combinator
  queue : List Nat := []          -- the operations that were initiated and not completed, oldest first

def set {α : Type} (f : Nat → α) (i : Nat) (a : α) : Nat → α := fun j => if j = i then a else f j

/-- `await_ready` (op.hpp:48-52). A second call overwrites `result` (detail/handler.hpp:193). -/
def St.ready (s : St) (i : Nat) : St :=
  match s.src (s.of i) with
  | [] => s
  | v :: vs => { s with src := set s.src (s.of i) vs, res := set s.res i (some v) }

/-- A child coroutine (detail/gather.hpp:97-135 and 304-338, detail/join.hpp:117-160 and 396-424,
detail/race.hpp:206-215, 243-269): it returns what is there, or starts the operation. That it waits for the
combinator to be wired up before it starts the operation makes no difference here. -/
def St.child (s : St) (i : Nat) : St :=
  let s := s.ready i
  match s.res i with
  | some v => { s with out := set s.out i (some v) }
  | none => { s with queue := s.queue ++ [i] }

/-- The children of a race are started until one has something (detail/race.hpp:296-323); the ones that were started
before are cancelled (`cancel_all`, 135-141). -/
def St.race (s : St) : List Nat → St
  | [] => s
  | i :: l =>
    let s := s.child i
    match s.out i with
    | some _ => { s with queue := [] }
    | none => s.race l

/-- `co_await gather(…)` and so on, of the operations `l`. -/
def St.await (s : St) (l : List Nat) : Form → St
  | .each => l.foldl St.child s
  | .range => l.foldl St.child (l.foldl St.ready s)
  | .race => s.race l

/-- Who still waits after operation `i` has completed: in a race it cancels the others (detail/race.hpp:216-220). -/
def Form.rest (q : List Nat) (i : Nat) : Form → List Nat
  | .race => []
  | _ => q.erase i

/-- A value arrives at source `k`. -/
def St.arrive (s : St) (fm : Form) (k v : Nat) : St :=
  match s.queue.find? fun i => s.of i == k with
  | some i => { s with
      res := set s.res i (some v)
      out := set s.out i (some v)
      queue := fm.rest s.queue i }
  | none => { s with src := set s.src k (s.src k ++ [v]) }

/-- A whole await: sources with something in them, and what arrives afterwards. -/
def run (fm : Form) (src : Nat → List Nat) (of : Nat → Nat) (l : List Nat) (vs : List (Nat × Nat)) : St :=
  vs.foldl (fun s p => s.arrive fm p.1 p.2) (St.await { src, of } l fm)

end Cobalt.Early
