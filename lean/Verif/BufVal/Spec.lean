import Verif.BufVal.Model
import Verif.Io.BufferSpec
/-!
# What C126 says

A sequence is a value: the addresses of the bytes it covers, and the identity of a registered buffer.
-/
namespace Cobalt.BufVal

open Io (Buf)

structure Val where
  bytes : List Nat := []
  id : Nat := 0
deriving DecidableEq, Repr

/-- The addresses of the bytes of some buffers. -/
def cells (bs : List Buf) : List Nat := (bs.map Buf.cells).flatten

structure Spec where
  uring : Bool
  arrs : List (Option (List Buf)) := []
  v : Nat → Val := fun _ => {}
  log : List (Nat × List Nat × Nat) := []

/-- What the program means: `+=` drops bytes from the front, a copy is the same value, and what happens to an array
does not matter to the sequences that have been made of it. Without io_uring a registered buffer is any buffer. -/
def Spec.step (p : Spec) : Ev → Spec
  | .array bs => { p with arrs := p.arrs ++ [some bs] }
  | .gone a => { p with arrs := p.arrs.set a none }
  | .put a i b => { p with arrs := p.arrs.modify a (Option.map (·.set i b)) }
  | .reg v id b => { p with v := upd p.v v ⟨b.cells, if p.uring then id else 0⟩ }
  | .plain v b => { p with v := upd p.v v ⟨b.cells, 0⟩ }
  | .span v a => match p.arrs[a]?.join with
    | none => p
    | some bs => { p with v := upd p.v v ⟨cells bs, 0⟩ }
  | .copy v w => { p with v := upd p.v v (p.v w) }
  | .adv v n => { p with v := upd p.v v { p.v v with bytes := (p.v v).bytes.drop n } }
  | .use v => { p with log := p.log ++ [(v, (p.v v).bytes, (p.v v).id)] }

def Spec.steps (p : Spec) : List Ev → Spec
  | [] => p
  | e :: es => (p.step e).steps es

/-- What the operations should be given. -/
def expected (c : Cfg) (es : List Ev) : List (Nat × List Nat × Nat) := (Spec.steps { uring := c.uring } es).log

/-- What the operations are given. -/
def given (s : St) : List (Nat × List Nat × Nat) := s.log.map fun x => (x.1, cells x.2.1, x.2.2)

/-- **C126**, in full. -/
def C126 : Prop := ∀ (c : Cfg) (es : List Ev), (exec c es).ub = false ∧ given (exec c es) = expected c es

/-- The array `q` refers to is there, or it refers to none. -/
def There (s : St) (q : Sq) : Prop := q.tail.len ≠ 0 → (s.arrs[q.tail.arr]?).join ≠ none

/-- With io_uring, and if the standard is taken at its word, an event reads only the member of the union that was
written last: a copy and a look at a single buffer need a registered one, `+=` and a look at several a plain one, and a
look at a single buffer that is not registered both. Without io_uring, or as gcc has it, any event will do. -/
def Active (s : St) : Ev → Prop
  | .copy _ w => s.cfg.uring = true → s.cfg.strict = true → (s.v w).plain = false
  | .adv v _ => s.cfg.uring = true → s.cfg.strict = true → (s.v v).plain = true
  | .use v => s.cfg.uring = true → s.cfg.strict = true →
      if (s.v v).tail.len = 0 then (s.v v).plain = false ∧ (s.v v).id ≠ 0 else (s.v v).plain = true
  | _ => True

/-- An event reads no array that is gone. -/
def Reads (s : St) : Ev → Prop
  | .adv v n => (s.v v).head.size ≤ n → There s (s.v v)
  | .use v => There s (s.v v)
  | _ => True

/-- A buffer is assigned only if no sequence refers to it. -/
def Still (s : St) : Ev → Prop
  | .put a i _ => ∀ v, (s.v v).tail.arr = a → ¬ ((s.v v).tail.off ≤ i ∧ i < (s.v v).tail.off + (s.v v).tail.len)
  | _ => True

/-- `P` holds whenever an event of `es` happens. -/
def All (P : St → Ev → Prop) (s : St) : List Ev → Prop
  | [] => True
  | e :: es => P s e ∧ All P (s.step e) es

/-- Where the union does not matter: no io_uring, or the union is read as gcc reads it. -/
def Lax (c : Cfg) : Prop := ¬ (c.uring = true ∧ c.strict = true)

/-- Arrays are neither destroyed nor changed. -/
def Keeps : Ev → Bool
  | .gone _ | .put _ _ _ => false
  | _ => true

/-- Sequences of one buffer: no arrays. -/
def Single : Ev → Bool
  | .span _ _ => false
  | _ => true

/-- What is defined with io_uring by the standard: registered buffers are made, copied and looked at. -/
def Registered : Ev → Bool
  | .reg _ id _ => id != 0
  | .copy _ _ | .use _ | .array _ | .gone _ | .put _ _ _ => true
  | _ => false

/-- The variables of a program have been given a value before they are read. -/
def Made (seen : List Nat) : List Ev → Prop
  | [] => True
  | .reg v _ _ :: es | .plain v _ :: es => Made (v :: seen) es
  | .copy v w :: es => w ∈ seen ∧ Made (v :: seen) es
  | .use v :: es => v ∈ seen ∧ Made seen es
  | _ :: es => Made seen es

end Cobalt.BufVal
