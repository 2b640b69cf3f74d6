import Verif.Strand.Model
/-! # What one expects of coroutines on strands -/
namespace Cobalt.Strand

/-- Threads that call coroutines are threads of the context. -/
def Cfg.Ok (g : Cfg) : Prop := ∀ c t, c < g.nC → g.direct c = some t → t < g.nT

/-- Every coroutine is spawned onto a strand. -/
def Cfg.Spawned (g : Cfg) : Prop :=
  ∀ c, c < g.nC → g.direct c = none ∧ ∃ k, g.ex c = .strand k

/-- The coroutine a thread is in. -/
def Pc.coro : Pc → Option Nat
  | .idle => none
  | .run c _ | .sus1 c _ | .sus2 c _ => some c

/-- Nothing is left to do. -/
def Stuck (g : Cfg) (s : St) : Prop := ∀ e, g.next s e = none

/-- `f 0 + … + f (n - 1)` -/
def total (f : Nat → Nat) : Nat → Nat
  | 0 => 0
  | n + 1 => total f n + f n

end Cobalt.Strand
