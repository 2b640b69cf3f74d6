/-!
# Model of the search for executor and allocator among the arguments of a coroutine

Sources: `include/boost/cobalt/detail/this_thread.hpp`, the constructors of the promises
(`detail/promise.hpp:338-347`, `detail/generator.hpp:372-381`, `detail/detached.hpp:63-71`,
`detail/task.hpp:321-328`) and `promise_memory_resource_base` (`this_coro.hpp:334-391`).

The search is done at compile time over the types of the arguments. Here an argument carries
what matters of its type. Simplifications: executors and memory resources are numbers; a
program that does not compile is the outcome `none`.
-/
namespace Cobalt.Args

/-- An argument of a coroutine. -/
inductive Arg where
  /-- `asio::executor_arg` -/
  | execTag
  /-- `std::allocator_arg` -/
  | allocTag
  /-- something that converts to an executor -/
  | exec (e : Nat)
  /-- an allocator with a memory resource -/
  | alloc (r : Nat)
  | other (n : Nat)
deriving DecidableEq, Repr

/-- The environment: the executor of the thread (there may be none, then `get_executor`
throws), its default resource, and `pmr::get_default_resource()`. -/
structure Env where
  exec : Option Nat
  res : Nat
  global : Nat
deriving DecidableEq, Repr

/-- What an executor is asked of: it is one, or `bad_executor` is thrown. -/
inductive GotExec where
  | exec (e : Nat)
  | throws
deriving DecidableEq, Repr

/-- `mp11::mp_find`: the index of the first, or the number of all. -/
def find (tag : Arg) : List Arg → Nat
  | [] => 0
  | a :: l => if a = tag then 0 else find tag l + 1

/-- `this_thread::get_executor` -/
def Env.getExec (env : Env) : GotExec :=
  match env.exec with
  | some e => .exec e
  | none => .throws

/-- `get_executor_from_args` (this_thread.hpp:27-36). -/
def getExecutor (env : Env) (args : List Arg) : Option GotExec :=
  let i := find .execTag args
  if args.length = i then some env.getExec
  else match args[i + 1]? with
    | some (.exec e) => some (.exec e)
    | _ => none

/-- The argument after the tag, as an allocator. -/
def resourceAt (args : List Arg) (i : Nat) : Option Nat :=
  match args[i + 1]? with
  | some (.alloc r) => some r
  | _ => none

/-- `get_memory_resource_from_args` (this_thread.hpp:38-48). -/
def getResource (env : Env) (args : List Arg) : Option Nat :=
  let i := find .allocTag args
  if args.length = i then some env.res else resourceAt args i

/-- `get_memory_resource_from_args_global` (this_thread.hpp:50-60). -/
def getResourceGlobal (env : Env) (args : List Arg) : Option Nat :=
  let i := find .allocTag args
  if args.length = i then some env.global else resourceAt args i

/-- The kinds of coroutines that search their arguments. -/
inductive Kind where
  | promise
  | generator
  | detached
  | task
deriving DecidableEq, Repr

/-- Resource of the frame: `promise_memory_resource_base::operator new` (this_coro.hpp:340-368),
inherited by all. -/
def Kind.frame (_ : Kind) (env : Env) (args : List Arg) : Option Nat := getResource env args

/-- Resource of the allocator of the coroutine: the constructor of the promise. -/
def Kind.allocator (k : Kind) (env : Env) (args : List Arg) : Option Nat :=
  match k with
  | .task => getResourceGlobal env args
  | _ => getResource env args

/-- Executor of the coroutine. A task does not look for one, it gets it from whoever awaits or
spawns it (task.hpp:321-328). -/
def Kind.executor (k : Kind) (env : Env) (args : List Arg) : Option (Option GotExec) :=
  match k with
  | .task => none
  | _ => some (getExecutor env args)

end Cobalt.Args
