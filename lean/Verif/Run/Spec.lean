import Verif.Run.Model
/-! # What `run` should do -/
namespace Cobalt.Run

/-- A task that does not set the executor itself (nested runs do). -/
def Task.Plain : Task → Prop
  | .done _ => True
  | .setExec _ _ => False
  | .setRes _ next => next.Plain
  | .run inner _ next => inner.Plain ∧ next.Plain

/-- The outcome of a task by itself, without any environment: its own end, unless an
exception from an inner run that is not looked at comes first. -/
def Task.outcome : Task → End
  | .done e => e
  | .setExec _ next | .setRes _ next => next.outcome
  | .run inner watch next => match watch, inner.outcome with
    | false, .throw x => .throw x
    | false, .never => .throw 0
    | _, _ => next.outcome

/-- Value or exception of the task as a caller sees it. -/
def Result.shows : Result → End → Prop
  | .value v, e => e = .value v
  | .throw x, e => e = .throw x
  | .broken, e => e = .never

/-- Executor and resource are the same. -/
def SameEnv (a b : Env) : Prop := a.exec = b.exec ∧ a.res = b.res

/-- The executor the task has set last itself when it ends. What inner runs set does not count. -/
def Task.lastSet : Task → Option Nat
  | .done _ => none
  | .setExec e next => next.lastSet.or (some e)
  | .setRes _ next => next.lastSet
  | .run inner watch next => match watch, inner.outcome with
    | false, .throw _ | false, .never => none
    | _, _ => next.lastSet

/-- The task, but for inner runs, sets no executor from number `k` on. -/
def Task.Below (k : Nat) : Task → Prop
  | .done _ => True
  | .setExec e next => e < k ∧ next.Below k
  | .setRes _ next => next.Below k
  | .run _ _ next => next.Below k

end Cobalt.Run
