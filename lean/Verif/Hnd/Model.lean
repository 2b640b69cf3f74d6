/-!
# Model of owning handles of coroutines

Source: `include/boost/cobalt/unique_handle.hpp`, with the typed and the `void` version, and
handles posted to an executor.

A suspended coroutine that is handed over gets a number, a new one for each time it suspends
and is handed over again. There are finitely many handles, known by their index, and a queue
of posted ones. What a resumed or destroyed coroutine does to other handles are further
operations in the list. Simplifications: an empty typed handle dereferences a null pointer
where an empty `void` one resumes a null handle; both are UB.
-/
namespace Cobalt.Hnd

structure St where
  /-- the handles; `none` is an empty one -/
  hs : List (Option Nat)
  /-- handles in the queue of an executor -/
  queue : List Nat := []
  /-- number of coroutines handed over -/
  next : Nat := 0
  /-- what was done to a coroutine, in order of time -/
  resumed : List Nat := []
  destroyed : List Nat := []
  ub : Bool := false
deriving DecidableEq, Repr

inductive Op where
  /-- `h = unique_handle(p)`, or `h.reset(p)`, for a coroutine that has just been suspended -/
  | take (h : Nat)
  /-- `d = std::move(s)` -/
  | move (d s : Nat)
  /-- `h.reset()`, `h.destroy()`, or the end of `h` -/
  | reset (h : Nat)
  /-- `h.release().resume()`, `std::move(h).resume()`, `std::move(h)()`, or `h.release()`
  returned for symmetric transfer -/
  | resume (h : Nat)
  /-- `h.resume()` or `h()` on an lvalue -/
  | resumeConst (h : Nat)
  /-- `asio::post(exec, std::move(h))` -/
  | post (h : Nat)
  /-- the executor runs the first in the queue -/
  | pump
  /-- the executor drops its queue -/
  | shutdown
deriving DecidableEq, Repr

/-- The coroutine of a handle. -/
def St.get (s : St) (h : Nat) : Option Nat := (s.hs[h]?).join

/-- `unique_ptr::reset`: store the new one, then destroy the former with `deleter_`
(unique_handle.hpp:111-119). -/
def St.put (s : St) (h : Nat) (x : Option Nat) : St :=
  match s.get h with
  | none => { s with hs := s.hs.set h x }
  | some t => { s with hs := s.hs.set h x, destroyed := s.destroyed ++ [t] }

/-- `release`: the handle is empty afterwards, nothing is destroyed. -/
def St.release (s : St) (h : Nat) : St := { s with hs := s.hs.set h none }

def St.step (s : St) (op : Op) : St :=
  if s.ub then s else match op with
  | .take h =>
    if h < s.hs.length then { s.put h (some s.next) with next := s.next + 1 } else s
  | .move d t =>
    if d < s.hs.length then
      let x := s.get t
      (s.release t).put d x
    else s
  | .reset h => s.put h none
  | .resume h =>
    match s.get h with
    | none => { s with ub := true }
    | some t => { s.release h with resumed := s.resumed ++ [t] }
  | .resumeConst h =>
    match s.get h with
    | none => { s with ub := true }
    | some t => { s with resumed := s.resumed ++ [t] }
  | .post h =>
    match s.get h with
    | none => s
    | some t => { s.release h with queue := s.queue ++ [t] }
  | .pump =>
    match s.queue with
    | [] => s
    | t :: q => { s with queue := q, resumed := s.resumed ++ [t] }
  | .shutdown => { s with queue := [], destroyed := s.destroyed ++ s.queue }

/-- `n` empty handles, and operations on them. -/
def St.run (n : Nat) (ops : List Op) : St :=
  ops.foldl St.step { hs := List.replicate n none }

end Cobalt.Hnd
