/-!
# Model of the awaitable signal of example/signals.cpp

`co_await sig` makes a `signal_awaitable` (lines 16-66) in the frame of the coroutine and connects a slot to the signal that
holds an `intrusive_ptr` to it. The pointer is an address: a coroutine and a place in its frame. An awaitable made later at
the same place (the next turn of a loop) is at the same address.

Of boost::signals2 is assumed: an emission goes through the slots that were connected when it began, in the order they were
connected, and leaves out the ones that were disconnected meanwhile; a slot disconnected by its own handler is destroyed when
that handler has returned; the destructor of the signal destroys the slots; the copies of the lambda made by
`connect_extended` are gone when it returns, but for the one in the slot. One thread.
-/
namespace Cobalt.Sig

/-- `awaited_from`, `use_count` (lines 52, 59). `result_cache` is written right before it is read (lines 33, 43) and is
not kept. -/
structure Aw where
  cnt : Nat
  owns : Bool
deriving DecidableEq, Repr

/-- A coroutine: its frame, and the awaitable that is alive in it, with its place. There is at most one: a second signal
awaited in one expression is left out. -/
structure Co where
  alive : Bool := true
  tmp : Option (Nat × Aw) := none
deriving DecidableEq, Repr

/-- What a coroutine does when it runs, up to where it is suspended again. -/
inductive Act
  | hold            -- it is suspended for something else in the expression of the `co_await`, the awaitable still lives
  | leave           -- the expression has ended, and the awaitable with it
  | again (k : Nat) -- the expression has ended, and the signal is awaited at place `k`
  | finish          -- it ends and its frame is freed
deriving DecidableEq, Repr

/-- A slot: what its `intrusive_ptr` (line 28) points to. -/
structure Slot where
  co : Nat
  place : Nat
deriving DecidableEq, Repr

/-- An emission under way: its number, the slots still to be called, and the one whose handler runs. -/
structure Fr where
  n : Nat
  todo : List Nat
  cur : Option Nat
deriving DecidableEq, Repr

inductive Obs
  | wait (w : Nat)      -- an await began; slots are numbered by it
  | emit (n : Nat)      -- the emission number `n` began
  | got (w n : Nat)     -- the await returned the value of emission `n`
  | gone (w : Nat)      -- the coroutine that waits by slot `w` was destroyed by an emission
  | dropped (w : Nat)   -- … by the destructor of the signal
  | killed              -- the signal was destroyed
deriving DecidableEq, Repr

structure St where
  co : Nat → Co := fun _ => {}
  slots : List Slot := []       -- all that were ever connected
  conn : List Nat := []         -- the connected ones
  stack : List Fr := []         -- the emissions under way, the innermost first
  emits : Nat := 0
  sig : Bool := true            -- the signal lives
  ub : Bool := false            -- an object was touched that does not exist
  log : List Obs := []

inductive Ev
  | go (i : Nat) (a : Act)   -- a coroutine that does not wait for the signal is resumed by something else
  | emit
  | call                     -- the innermost emission goes on to the next slot, or ends
  | act (a : Act)            -- the coroutine resumed by the handler that runs
  | kill                     -- the signal is destroyed
deriving DecidableEq, Repr

def upd (f : Nat → Co) (i : Nat) (c : Co) : Nat → Co := fun j => if j = i then c else f j

/-- `awaited_from` holds the coroutine. -/
def Co.waiting (c : Co) : Bool := c.tmp.any (·.2.owns)

/-- The slot number `w`. -/
def St.slot (s : St) (w : Nat) : Slot := s.slots.getD w ⟨0, 0⟩

/-- `i` runs, called by a handler that has not returned. -/
def St.running (s : St) (i : Nat) : Bool := s.stack.any fun f => f.cur.any fun w => (s.slot w).co == i

/-- The caller of an emission, or a coroutine resumed by a handler, is at work (and not the code of the signal). -/
def St.user (s : St) : Bool :=
  match s.stack with
  | [] => true
  | f :: _ => f.cur.isSome

/-- What the coroutine `i` does (the awaitable: lines 23-37, 71-76). -/
def St.doAct (s : St) (i : Nat) : Act → St
  | .hold => s
  | .leave => { s with co := upd s.co i { tmp := none } }
  | .again k => { s with
      co := upd s.co i { tmp := some (k, ⟨1, true⟩) }
      slots := s.slots ++ [⟨i, k⟩]
      conn := s.conn ++ [s.slots.length]
      log := s.log ++ [.wait s.slots.length] }
  | .finish => { s with co := upd s.co i { alive := false, tmp := none } }

/-- `intrusive_ptr_release` (lines 61-65) for the pointer in slot `w`. `o`: how to note down that the coroutine was
destroyed. -/
def St.release (s : St) (w : Nat) (o : Nat → Obs) : St :=
  let p := s.slot w
  let c := s.co p.co
  match c.alive, c.tmp with
  | true, some (k, a) =>
    if k = p.place then
      if a.cnt = 1 ∧ a.owns = true then
        { s with co := upd s.co p.co { alive := false, tmp := none }, log := s.log ++ [o w] }
      else { s with co := upd s.co p.co { tmp := some (k, { a with cnt := a.cnt - 1 }) } }
    else { s with ub := true }
  | _, _ => { s with ub := true }

/-- The handler (lines 31-34), up to where it resumes the coroutine. -/
def St.handler (s : St) (w n : Nat) : St :=
  let p := s.slot w
  let c := s.co p.co
  match c.alive, c.tmp with
  | true, some (k, a) =>
    if k = p.place ∧ a.owns = true then
      { s with
        co := upd s.co p.co { tmp := some (k, { a with owns := false }) }
        conn := s.conn.erase w
        log := s.log ++ [.got w n] }
    else { s with ub := true }
  | _, _ => { s with ub := true }

/-- What a program can do. -/
def St.ok (s : St) : Ev → Bool
  | .go i a => s.user && (s.co i).alive && !(s.co i).waiting && !s.running i &&
      (s.sig || !(match a with | .again _ => true | _ => false))
  | .emit => s.user && s.sig
  | .call => !s.user
  | .act a => s.user && !s.stack.isEmpty && (s.sig || !(match a with | .again _ => true | _ => false))
  | .kill => s.user && s.sig

def St.step (s : St) (e : Ev) : St :=
  if s.ub || !s.ok e then s else
  match e with
  | .go i a => s.doAct i a
  | .emit => { s with stack := ⟨s.emits, s.conn, none⟩ :: s.stack, emits := s.emits + 1, log := s.log ++ [.emit s.emits] }
  | .call =>
    match s.stack with
    | [] => s
    | f :: fs =>
      match f.todo with
      | [] => { s with stack := fs }
      | w :: ws =>
        if w ∈ s.conn then St.handler { s with stack := { f with todo := ws, cur := some w } :: fs } w f.n
        else { s with stack := { f with todo := ws } :: fs }
  | .act a =>
    match s.stack with
    | { n, todo, cur := some w } :: fs =>
      ({ s with stack := ⟨n, todo, none⟩ :: fs }.doAct (s.slot w).co a).release w .gone
    | _ => s
  | .kill =>
    s.conn.foldl (fun s w => s.release w .dropped) { s with sig := false, conn := [], log := s.log ++ [.killed] }

def exec (es : List Ev) : St := es.foldl St.step {}

theorem exec_snoc (es : List Ev) (e : Ev) : exec (es ++ [e]) = (exec es).step e := by
  simp [exec, List.foldl_append]

end Cobalt.Sig
