/-!
# Model of obtaining and giving up descriptors

Sources: `src/io/file.cpp` (without native files), `src/io/socket.cpp` (`connect_pair`, `close`,
`release`, `assign`), `src/io/pipe.cpp` (`pipe`).

Simplifications: descriptors are numbered in the order of their creation and not reused. Whether
a system call succeeds, and whether asio can register a descriptor with its reactor, is left to
the environment. asio's `assign` fails on an object which is open and leaves both the object and
the descriptor as they were; its `close` always gives up the descriptor; its `connect_pipe`
closes both ends if it fails. This is what asio's documentation and sources say.
-/
namespace Cobalt.Desc

/-- How a call ends. -/
inductive Res where
  | ok
  /-- the `system::result` holds an error -/
  | error
  /-- an exception leaves the function -/
  | throw
  /-- there is no such object -/
  | none_
deriving DecidableEq, Repr

/-- The process: its open descriptors, the objects and what the user took back. -/
structure St where
  /-- descriptors made so far -/
  next : Nat := 0
  /-- the open descriptors -/
  fds : List Nat := []
  /-- the objects: the descriptor held, if any -/
  objs : List (Option Nat) := []
  /-- the descriptors given to the user by `release` -/
  user : List Nat := []
deriving DecidableEq, Repr

inductive Ev where
  /-- a closed file or socket -/
  | make
  /-- `file::open`: `sys`, whether `::open` succeeds; `reg`, whether the reactor takes it -/
  | open_ (i : Nat) (sys reg : Bool)
  | close (i : Nat)
  /-- `release` of an open object -/
  | release (i : Nat)
  /-- `connect_pair(protocol, socket1, socket2)` -/
  | connectPair (i j : Nat) (sys reg1 reg2 : Bool)
  /-- `pipe()` -/
  | pipe (sys reg : Bool)
deriving DecidableEq, Repr

/-- asio's `assign`: whether it took the descriptor. -/
def St.assign (s : St) (i fd : Nat) (reg : Bool) : St × Bool :=
  match s.objs[i]? with
  | some none => if reg then ({ s with objs := s.objs.set i (some fd) }, true) else (s, false)
  | _ => (s, false)

/-- The system makes a descriptor. -/
def St.fresh (s : St) : St := { s with next := s.next + 1, fds := s.fds ++ [s.next] }

/-- `::close` -/
def St.closeFd (s : St) (fd : Nat) : St := { s with fds := s.fds.filter (· ≠ fd) }

/-- asio's `close`, and the destructor of an object. -/
def St.close (s : St) (i : Nat) : St :=
  match s.objs[i]? with
  | some (some fd) => { s.closeFd fd with objs := s.objs.set i none }
  | _ => s

/-- One call. -/
def St.step (s : St) : Ev → St × Res
  | .make => ({ s with objs := s.objs ++ [none] }, .ok)
  -- file.cpp:127-135
  | .open_ i sys reg =>
    match s.objs[i]? with
    | none => (s, .none_)
    | some _ =>
      if !sys then (s, .error)
      else
        match s.fresh.assign i s.next reg with
        | (s', true) => (s', .ok)
        | (s', false) => (s', .error)
  -- file.cpp:184-189, socket.cpp:27-32
  | .close i => (s.close i, .ok)
  -- file.cpp:142-147, socket.cpp:79-84
  | .release i =>
    match s.objs[i]? with
    | some (some fd) => ({ s with objs := s.objs.set i none, user := s.user ++ [fd] }, .ok)
    | _ => (s, .error)
  -- socket.cpp:158-188
  | .connectPair i j sys reg1 reg2 =>
    match s.objs[i]?, s.objs[j]? with
    | some _, some _ =>
      if !sys then (s, .error)
      else
        let a := s.next
        let b := s.next + 1
        match s.fresh.fresh.assign i a reg1 with
        | (s', false) => ((s'.closeFd a).closeFd b, .error)
        | (s', true) =>
          match s'.assign j b reg2 with
          | (s'', false) => ((s''.close i).closeFd b, .error)
          | (s'', true) => (s'', .ok)
    | _, _ => (s, .none_)
  -- pipe.cpp:128-138: `ec` is not given to `connect_pipe`
  | .pipe sys reg =>
    if !sys then (s, .throw)
    else if !reg then ((s.fresh.fresh.closeFd s.next).closeFd (s.next + 1), .throw)
    else ({ s.fresh.fresh with objs := s.objs ++ [some s.next, some (s.next + 1)] }, .ok)

def St.run (s : St) (es : List Ev) : St := es.foldl (fun s e => (s.step e).1) s

end Cobalt.Desc
