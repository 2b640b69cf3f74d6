import Verif.Lfq.Model
/-
What is expected from the queue of example/spsc.cpp, and the moments of a schedule that decide about it.
-/
namespace Cobalt.Lfq

/-- Nothing failed, nobody can do anything, yet not both loops are over. -/
def Dead (s : St) : Prop := s.bad = none ∧ (∀ e, s.step e = s) ∧ ¬ (s.rd = .done ∧ s.wr = .done)

/-- Every value that was written is read or still there, in the order it was written; nothing failed. -/
def Fine (s : St) : Prop := s.bad = none ∧ s.out ++ s.q = List.range s.sent

/-- The other thread. -/
def Ev.other : Ev → Ev
  | .r => .w
  | .w => .r

/-- Where a thread is. -/
def St.ph (s : St) : Ev → Ph
  | .r => s.rd
  | .w => s.wr

/-- There is nothing to read; there is no space to write. -/
def St.Blk (s : St) : Ev → Prop
  | .r => s.q = []
  | .w => s.cap ≤ s.q.length

/-- This thread has something left to do. -/
def St.Wants (s : St) : Ev → Prop
  | .r => s.out.length ≠ s.n
  | .w => s.sent ≠ s.n

/-- In its next turn this thread finds out that it has to wait. -/
def St.Finds (s : St) (e : Ev) : Prop := s.bad = none ∧ s.ph e = .idle ∧ s.Wants e ∧ s.Blk e

/-- Some turn of `e` in `b`, after `a`, begins in a state like this. -/
def Does (cap n : Nat) (P : St → Prop) (e : Ev) (a b : List Ev) : Prop :=
  ∃ b₁ b₂, b = b₁ ++ e :: b₂ ∧ P (run cap n (a ++ b₁))

/-- In `b`, after `a`, thread `e` reads (or writes) a value. -/
abbrev Moves (cap n : Nat) (e : Ev) (a b : List Ev) : Prop := Does cap n (fun s => s.ph e = .go) e a b

/-- In `b`, after `a`, thread `e` looks for somebody to wake. -/
abbrev Looks (cap n : Nat) (e : Ev) (a b : List Ev) : Prop := Does cap n (fun s => s.ph e = .after) e a b

/-- **A wake-up is missed**: `e` finds out that it has to wait; before it has stored its handle, the other one
moves a value, and it does not look for `e` any more once the handle is there. -/
def Missed (cap n : Nat) (e : Ev) (h : List Ev) : Prop :=
  ∃ a b c, h = a ++ e :: (b ++ e :: c) ∧ (run cap n a).Finds e ∧ (∀ x ∈ b, x = e.other) ∧
    Moves cap n e.other (a ++ [e]) b ∧ ¬ Looks cap n e.other (a ++ e :: (b ++ [e])) c

/-- **A wake-up is stale**: `e` finds out that it has to wait, and is woken and tries again although the other
one has not moved a value since. -/
def Stale (cap n : Nat) (e : Ev) (h : List Ev) : Prop :=
  ∃ a b c, h = a ++ e :: (b ++ e :: c) ∧ (run cap n a).Finds e ∧ ¬ Moves cap n e.other (a ++ [e]) b ∧
    (run cap n (a ++ e :: b)).bad = none ∧ (run cap n (a ++ e :: b)).ph e = .go

/-- How the failure of this thread is called. -/
def Ev.fault : Ev → Bad
  | .r => .empty
  | .w => .full

/-- No turn of this schedule is wasted on somebody who cannot go on. -/
def Busy (cap n : Nat) (h : List Ev) : Prop :=
  ∀ a e b, h = a ++ e :: b → run cap n (a ++ [e]) ≠ run cap n a

/-- Nobody gets between the test and the store, nor between the move and the look, of the other thread. -/
def Calm (cap n : Nat) (h : List Ev) : Prop :=
  ∀ a b e, h = a ++ e :: b → (run cap n a).ph e.other ≠ .late ∧ (run cap n a).ph e.other ≠ .after

end Cobalt.Lfq
