import Verif.Net.Model
/-! What a network of coroutines should do. -/
namespace Cobalt.Net

/-- What a coroutine with the program `f` has done when `h` came of it. -/
def done (f : List Res → Act) (h : List Res) : List Act := (List.range h.length).map fun i => f (h.take i)

/-- The values written to channel `c` before it was closed. -/
def sent (c : Nat) : List Act → List Nat
  | [] => []
  | .write c' v :: as => if c' = c then v :: sent c as else sent c as
  | .close c' :: as => if c' = c then [] else sent c as
  | _ :: as => sent c as

/-- What came of the reads of channel `c`. -/
def received (f : List Res → Act) (c : Nat) (h : List Res) : List Res :=
  (List.range h.length).filterMap fun i => if f (h.take i) = .read c then h[i]? else none

/-- What can come of an operation, after `h` came of those before: a read gets a value or finds the end, a write succeeds
unless the writer has closed the channel before. -/
def fit (f : List Res → Act) (h : List Res) (x : Res) : Prop :=
  match f h with
  | .read _ => (∃ v, x = .val v) ∨ x = .broken
  | .write c _ => if Act.close c ∈ done f h then x = .broken else x = .ok
  | .close _ => x = .ok
  | .stop => False

/-- All of `h` can come of what the program `f` does. -/
def fits (f : List Res → Act) (h : List Res) : Prop := ∀ l x, l ++ [x] <+: h → fit f l x

/-- Every channel has one reader and one writer, and only the writer closes it. -/
structure Prog.proper (N : Prog) : Prop where
  read : ∀ p h c, N.act p h = .read c → N.rd c = p
  write : ∀ p h c v, N.act p h = .write c v → N.wr c = p
  close : ∀ p h c, N.act p h = .close c → N.wr c = p

/-- Nothing more happens: no resumption is posted, and a coroutine that could go on has nothing more to do. -/
def St.rest (N : Prog) (s : St) : Prop :=
  (∀ c, (s.ch c).posted = []) ∧ ∀ p, s.pos p = .idle → N.act p (s.hist p) = .stop

/-- The event does something: a coroutine goes on that has something to do, or a resumption is run. -/
def St.useful (N : Prog) (s : St) : Ev → Prop
  | .go p _ => s.pos p = .idle ∧ N.act p (s.hist p) ≠ .stop
  | .run c k => k < (s.ch c).posted.length

/-- All events do something. -/
def St.usefuls (N : Prog) (s : St) : List Ev → Prop
  | [] => True
  | e :: es => s.useful N e ∧ St.usefuls N (s.step N e) es

end Cobalt.Net
