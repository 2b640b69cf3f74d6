import Verif.Tmo.Model
/-! # What C100 says -/
namespace Cobalt.Tmo

/-- The messages that have arrived. -/
def arrived (es : List E) : List Nat := es.filterMap fun
  | .arrive m => some m
  | _ => none

/-- The messages that the loop was given. -/
def got (out : List Res) : List Nat := out.flatMap fun
  | .data l => l
  | _ => []

/-- Between two rounds every message has been given to the loop, or has been taken by the promise that is
kept, or waits, in order. -/
def NoLoss (c : Cfg) (es : List E) : Prop :=
  (St.exec c es).race = none →
    arrived es = got (St.exec c es).out ++ (if c.kept then (St.exec c es).buf else []) ++ (St.exec c es).inp

/-- C100. -/
def C100 : Prop := ∀ c, 0 < c.need → ∀ es, NoLoss c es

/-- The race ends with the wait, and the operation, which is not kept, has taken messages: these. -/
def drops (c : Cfg) (s : St) (e : E) : List Nat :=
  if c.kept = false ∧ (s.step c e).out = s.out ++ [.timeout] then s.buf else []

/-- What was dropped in the course of the events. -/
def dropped (c : Cfg) : St → List E → List Nat
  | _, [] => []
  | s, e :: es => drops c s e ++ dropped c (s.step c e) es

/-- A message is taken only when no handler waits, and the handler of the read is called at once: what the
reactor of asio does as long as nothing else is done on the descriptor. -/
def OneGo (c : Cfg) : St → List E → Prop
  | _, [] => True
  | s, .take :: .run :: es => if s.inp = [] ∨ s.rd ≠ .pending then OneGo c ((s.step c .take).step c .run) es
    else s.queue = [] ∧ OneGo c ((s.step c .take).step c .run) es
  | s, .take :: es => (s.inp = [] ∨ s.rd ≠ .pending) ∧ OneGo c (s.step c .take) es
  | s, e :: es => OneGo c (s.step c e) es

end Cobalt.Tmo
