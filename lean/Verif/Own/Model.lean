import Verif.Chan.Spec
/-!
# What happens to the variable that is written to a channel

Sources: `include/boost/cobalt/channel.hpp:109-124` (`write_op` keeps a pointer to what is written, of type `T *` or
`const T *`), `:159-183` (the four overloads of `write`), `include/boost/cobalt/impl/channel.hpp:121-133` and `:243-255`
(a value is handed over from operation to operation), `:298-308` (it is put into the buffer). A value is moved out of a
`T *` and copied out of a `const T *`.

The channels are those of `Verif.Chan.Model`. Here are the variables of the program, and which variable a write operation
points to.

Simplifications:
* a write operation is awaited in the expression that makes it, so what it points to is there as long as the operation is;
* what is left in a variable that was moved from is not modelled (`none`);
* if a step takes the values of several operations, it does so in the order of their numbers.
-/
namespace Cobalt.Own
open Chan (Obs WRes Tok upd)

/-- The overload of `write` (channel.hpp:159-183). -/
inductive Kind where
  /-- `c.write(x)`: `write(T & value)` -/
  | lvalue
  /-- `c.write(std::as_const(x))`: `write(const T & value)` -/
  | const
  /-- `c.write(std::move(x))`: `write(T && value)` -/
  | rvalue
  /-- `c.write(std::move(std::as_const(x)))`: `write(const T && value)` -/
  | constRvalue
deriving DecidableEq, Repr

/-- The pointer the operation keeps is a `T *` (channel.hpp:112-116): the value is moved out. -/
def Kind.moves : Kind → Bool
  | .lvalue | .rvalue => true
  | .const | .constRvalue => false

structure St where
  /-- the channels -/
  ch : Nat → Chan.St
  /-- the variables; `none`: moved from -/
  mem : Nat → Option Nat
  /-- the variable a write operation of a channel points to, and how -/
  src : Nat → Nat → Nat := fun _ _ => 0
  kind : Nat → Nat → Kind := fun _ _ => .const
  /-- what was in that variable when the operation was made -/
  given : Nat → Nat → Option Nat := fun _ _ => none
  /-- what was taken from it -/
  got : Nat → Nat → Option (Option Nat) := fun _ _ => none

def upd₂ {α : Type} (f : Nat → Nat → α) (c i : Nat) (x : α) : Nat → Nat → α := upd f c (upd (f c) i x)

/-- The value of write operation `i` has been taken: it was handed to a reader, or the write has ended well, which put it
into the buffer. -/
def took (t : Chan.St) (i : Nat) : Bool := (t.W i).direct || decide (Obs.doneW i .ok ∈ t.log)

/-- The value of operation `i` is taken (impl/channel.hpp:121-133, 243-255, 298-308). -/
def St.takeOne (c : Nat) (s : St) (i : Nat) : St :=
  { s with got := upd₂ s.got c i (some (s.mem (s.src c i)))
           mem := if (s.kind c i).moves then upd s.mem (s.src c i) none else s.mem }

def St.news (s : St) (c : Nat) (t : Chan.St) : List Nat :=
  (List.range t.nextW).filter fun i => took t i && (s.got c i).isNone

/-- Channel `c` comes into the state `t`. -/
def St.chan (s : St) (c : Nat) (t : Chan.St) : St := (s.news c t).foldl (St.takeOne c) { s with ch := upd s.ch c t }

/-- An operation is made that points to variable `x`. -/
def St.point (s : St) (c x : Nat) (k : Kind) : St :=
  { s with src := upd₂ s.src c (s.ch c).nextW x, kind := upd₂ s.kind c (s.ch c).nextW k
           given := upd₂ s.given c (s.ch c).nextW (s.mem x) }

inductive Ev where
  /-- `co_await` of a write of variable `x` to channel `c` -/
  | write (c x : Nat) (k : Kind) (conn txn : Bool) (hits : List Tok)
  /-- anything else on channel `c` -/
  | chan (c : Nat) (e : Chan.Ev)
  /-- variable `x` is assigned -/
  | set (x v : Nat)
deriving DecidableEq, Repr

def isWrite : Chan.Ev → Bool
  | .mkW | .awaitW .. => true
  | _ => false

def St.step (s : St) : Ev → St
  | .write c x k conn txn hits =>
    (s.point c x k).chan c ((s.ch c).steps [.mkW, .awaitW (s.ch c).nextW conn txn hits])
  | .chan c e => if isWrite e then s else s.chan c ((s.ch c).step e)
  | .set x v => { s with mem := upd s.mem x (some v) }

def St.init (cap : Nat → Nat) (m : Nat → Nat) : St := { ch := fun c => Chan.St.init (cap c), mem := fun x => some (m x) }

/-- Channels with the limits `cap` and variables with the values `m`, after the events `es`. -/
def run (cap : Nat → Nat) (m : Nat → Nat) (es : List Ev) : St := es.foldl St.step (St.init cap m)

end Cobalt.Own
