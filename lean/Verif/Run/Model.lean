/-!
# Model of `run` and the environment of a thread

Sources: `include/boost/cobalt/run.hpp`, `src/this_thread.cpp`.

Simplifications: executors are known by the context they belong to, contexts and memory
resources by numbers. What a task does is a tree: it may change the environment of the
thread, run other tasks by nested calls of `run`, and it ends with a value, an exception, or
(`never`) by stopping the context before it has ended. Contexts other than those of `run`
are not destroyed meanwhile.
-/
namespace Cobalt.Run

/-- The environment: `this_thread::detail::executor` and `default_coro_memory_resource`
(this_thread.cpp:23-27), and a counter for fresh contexts and resources. -/
structure Env where
  exec : Option Nat
  res : Nat
  fresh : Nat
deriving DecidableEq, Repr

/-- How a task ends. -/
inductive End where
  | value (v : Nat)
  | throw (x : Nat)
  | never
deriving DecidableEq, Repr

/-- What a call of `run` gives. -/
inductive Result where
  | value (v : Nat)
  | throw (x : Nat)
  /-- `std::future_error` with `broken_promise` -/
  | broken
deriving DecidableEq, Repr

/-- A task. -/
inductive Task where
  | done (e : End)
  /-- `this_thread::set_executor` -/
  | setExec (e : Nat) (next : Task)
  /-- `this_thread::set_default_resource` -/
  | setRes (r : Nat) (next : Task)
  /-- `run(inner)`; its result is looked at if `watch`, otherwise an exception of it is the
  end of this task -/
  | run (inner : Task) (watch : Bool) (next : Task)
deriving DecidableEq, Repr

/-- `this_thread_service::shutdown` (this_thread.cpp:70-75), called when context `c` is
destroyed. -/
def Env.shutdown (env : Env) (c : Nat) : Env :=
  if env.exec = some c then { env with exec := none } else env

/-- `f.get()` -/
def get : End → Result
  | .value v => .value v
  | .throw x => .throw x
  | .never => .broken

/-- What an inner result does to the task that called `run`. -/
def after : Result → Option End
  | .value _ => none
  | .throw x => some (.throw x)
  | .broken => some (.throw 0)

/-- The end of the block and of the function (run.hpp:29-57), in the order of destruction:
`reset_exec` sets the former executor if there was one, the context is destroyed, `f.get()`,
then `reset_res` sets the former resource. -/
def Env.leave (before : Env) (ctx : Nat) (inside : Env) : Env :=
  let env := match before.exec with
    | some e => { inside with exec := some e }
    | none => inside
  let env := env.shutdown ctx
  { env with res := before.res }

/-- What a task does to the environment, and how it ends. `run` (run.hpp:16-57) makes a
resource and a context and sets both. -/
def Task.exec : Task → Env → Env × End
  | .done e, env => (env, e)
  | .setExec e next, env => next.exec { env with exec := some e }
  | .setRes r next, env => next.exec { env with res := r }
  | .run inner watch next, env =>
    let ctx := env.fresh
    let p := inner.exec { exec := some ctx, res := ctx + 1, fresh := ctx + 2 }
    let env' := env.leave ctx p.1
    match watch, after (get p.2) with
    | false, some e => (env', e)
    | _, _ => next.exec env'

/-- `run(t)` -/
def run (t : Task) (env : Env) : Env × Result :=
  let ctx := env.fresh
  let p := t.exec { exec := some ctx, res := ctx + 1, fresh := ctx + 2 }
  (env.leave ctx p.1, get p.2)

end Cobalt.Run
