/-
Model of example/spsc.cpp: a lock-free queue for one reader and one writer on two threads, made awaitable.

* `awaitable_spsc_queue` (example/spsc.cpp:16-118): the queue and the two atomics in which a waiting coroutine
  leaves its handle;
* `read_op::await_ready/await_suspend/await_resume` (lines 45, 50-62, 63-74) and the same for `write_op`
  (lines 88, 92-102, 106-113);
* `thr` and `co_main` (lines 121-141): one coroutine writes `n` values, the other reads until it has seen the
  last one.

Each coroutine is on a thread of its own, so a schedule is a list that says whose turn it is.  A turn is what
one thread does between two accesses to something shared: the test of `await_ready`, the store of the handle in
`await_suspend`, the `pop`/`push` and the `exchange` in `await_resume`.

Simplified: the atomics and the queue are sequentially consistent (the atomics are, the queue uses
acquire/release, which allows more, not fewer, interleavings).  The exchange and the post that follows it are one
turn, for the one who is posted cannot move in between.  The values are 0, 1, … , n-1.  The destructor of the
queue is left out.
-/
namespace Cobalt.Lfq

/-- Where a coroutine is. -/
inductive Ph
  /-- at the head of its loop: the next thing is `await_ready` -/
  | idle
  /-- `await_ready` was false: the next thing is to store the handle -/
  | late
  /-- suspended, the handle is stored -/
  | asleep
  /-- the handle was taken and posted to its executor -/
  | posted
  /-- in front of the `pop` or `push` of `await_resume` -/
  | go
  /-- in front of the `exchange` of `await_resume` -/
  | after
  /-- the loop is over -/
  | done
  deriving DecidableEq, Repr

/-- Whose turn it is. -/
inductive Ev
  | r
  | w
  deriving DecidableEq, Repr

/-- What can go wrong. -/
inductive Bad
  /-- one of the assertions in lines 59 and 100 -/
  | assert
  /-- `pop` of an empty queue: `res` (line 65) is returned without a value -/
  | empty
  /-- `push` to a full queue: the value is dropped -/
  | full
  deriving DecidableEq, Repr

structure St where
  /-- capacity of the queue -/
  cap : Nat
  /-- how many values are to be written -/
  n : Nat
  /-- `queue` -/
  q : List Nat := []
  /-- `reader`, `writer`: is there a handle in it? (line 34) -/
  hr : Bool := false
  hw : Bool := false
  rd : Ph := .idle
  wr : Ph := .idle
  /-- what was read -/
  out : List Nat := []
  /-- how many values were written -/
  sent : Nat := 0
  /-- nothing is done any more after this -/
  bad : Option Bad := none
  deriving DecidableEq, Repr

def St.init (cap n : Nat) : St := { cap, n }

/-- The reading thread does what comes next. -/
def St.read (s : St) : St :=
  match s.rd with
  -- lines 135-137, and line 45
  | .idle => if s.out.length = s.n then { s with rd := .done }
             else if s.q = [] then { s with rd := .late } else { s with rd := .go }
  -- lines 59-61
  | .late => if s.hr then { s with bad := some .assert } else { s with hr := true, rd := .asleep }
  | .asleep => s
  | .posted => { s with rd := .go }
  -- line 67
  | .go => match s.q with
    | [] => { s with bad := some .empty }
    | v :: q => { s with q, out := s.out ++ [v], rd := .after }
  -- lines 69-71
  | .after => if s.hw then { s with hw := false, wr := .posted, rd := .idle } else { s with rd := .idle }
  | .done => s

/-- The writing thread does what comes next. -/
def St.write (s : St) : St :=
  match s.wr with
  -- lines 123-126, and line 88
  | .idle => if s.sent = s.n then { s with wr := .done }
             else if s.q.length < s.cap then { s with wr := .go } else { s with wr := .late }
  -- lines 100-101
  | .late => if s.hw then { s with bad := some .assert } else { s with hw := true, wr := .asleep }
  | .asleep => s
  | .posted => { s with wr := .go }
  -- line 108
  | .go => if s.q.length < s.cap then { s with q := s.q ++ [s.sent], sent := s.sent + 1, wr := .after }
           else { s with bad := some .full }
  -- lines 110-112
  | .after => if s.hr then { s with hr := false, rd := .posted, wr := .idle } else { s with wr := .idle }
  | .done => s

def St.step (s : St) : Ev → St
  | .r => if s.bad.isSome then s else s.read
  | .w => if s.bad.isSome then s else s.write

/-- The state after a schedule. -/
def run (cap n : Nat) (h : List Ev) : St := h.foldl St.step (St.init cap n)

end Cobalt.Lfq
