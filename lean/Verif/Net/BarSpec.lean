import Verif.Net.Spec
/-! A barrier made of channels. -/
namespace Cobalt.Net

/-- What participant `i` does as its operation number `t`: in each of `R` rounds it writes to channel `2 * i` that it has
arrived, and waits until it reads from channel `2 * i + 1` that it may go on. -/
def guest (R i t : Nat) : Act :=
  if t < 2 * R then (if t % 2 = 0 then .write (2 * i) 0 else .read (2 * i + 1)) else .stop

/-- What the host of `n` participants does: in each round it waits for everybody, and then lets everybody go on. -/
def host (n R t : Nat) : Act :=
  if t < 2 * n * R then
    (if t % (2 * n) < n then .read (2 * (t % (2 * n))) else .write (2 * (t % (2 * n) - n) + 1) 0)
  else .stop

/-- `n` participants, numbered from 0, and their host, which has the number `n`. -/
def barrier (n R : Nat) : Prog where
  act := fun p h => if p < n then guest R p h.length else if p = n then host n R h.length else .stop
  rd := fun c => if c % 2 = 0 then n else c / 2
  wr := fun c => if c % 2 = 0 then c / 2 else n

/-- How many operations a coroutine has begun. -/
def St.begun (s : St) (p : Nat) : Nat := (s.hist p).length + if s.pos p = .idle then 0 else 1

end Cobalt.Net
