/-!
# Model of the memory used by a spawn onto another thread

Sources: `detail/spawn.hpp:31-190`, `detail/wrapper.hpp:25-150`, `this_coro.hpp:333-396`,
`detail/task.hpp:349-386`, `unique_handle.hpp:275-300`.

Thread `a` creates a task and spawns it onto an executor which runs on thread `b`. Each thread is
the list of what it does with memory resources, and where it synchronises with the other.

Simplifications: asio's operations are trusted to synchronise; an operation that is queued is
allocated with the allocator of the handler and freed before it runs, on the thread that
runs it. What the body of the task allocates for itself is not part of the model: it comes from
the resource of `b`. Resources are either the `unsynchronized_pool_resource` of thread `a`
(run.hpp:20, main.hpp:109, thread.cpp:34), or can be used by any thread, as `new_delete_resource`.
-/
namespace Cobalt.Xthr

inductive Thread where
  | a
  | b
deriving DecidableEq, Repr

inductive Res where
  /-- the pool of thread `a`, its default resource -/
  | pool
  /-- one that may be used by any thread -/
  | safe
deriving DecidableEq, Repr

inductive Act where
  /-- allocation, deallocation, or destruction of the resource itself -/
  | use (r : Res)
  /-- a queue is written to -/
  | send (k : Nat)
  /-- it is read from -/
  | recv (k : Nat)
deriving DecidableEq, Repr

/-- How `a` learns about the completion. -/
inductive Ack where
  /-- the executor of the handler runs on `a`: `use_op` -/
  | handler
  /-- the handler runs on `b` and `a` waits for it: `use_future` -/
  | future
  /-- the handler runs on `b` and `a` does not wait: `detached` -/
  | never
deriving DecidableEq, Repr

structure Cfg where
  /-- the resource of the task, an argument or the default resource
  (`get_memory_resource_from_args`) -/
  frame : Res := .pool
  /-- the allocator of the handler, or the default (spawn.hpp:43-49) -/
  alloc : Res := .pool
  ack : Ack := .handler
deriving DecidableEq, Repr

/-- The call of the task, and of `spawn`: the frame, the receiver, the frame of `post_coroutine`,
the operation for `dispatch`, which has the allocator of the promise (unique_handle.hpp:279-297). -/
def Cfg.spawn (c : Cfg) : List Act := [.use c.frame, .use c.alloc, .use c.alloc, .use c.frame]

/-- The task on `b`: the operation of `dispatch` is freed; at the end the frame
(task.hpp:373), the frame of `post_coroutine`, and `post` allocates (wrapper.hpp:93-102). -/
def Cfg.task (c : Cfg) : List Act := [.use c.frame, .use c.frame, .use c.alloc, .use c.alloc]

/-- The completion: the operation of `post` is freed, then the receiver (spawn.hpp:79-89). -/
def Cfg.complete (c : Cfg) : List Act := [.use c.alloc, .use c.alloc]

/-- Thread `a`, which uses the resources `pre` before, `mid` between the spawn and learning about
the completion, and `post` afterwards. -/
def Cfg.progA (c : Cfg) (pre mid post : List Res) : List Act :=
  pre.map .use ++ c.spawn ++ .send 0 :: (mid.map .use ++
    match c.ack with
    | .handler => .recv 1 :: (c.complete ++ post.map .use)
    | .future => .recv 1 :: post.map .use
    | .never => post.map .use)

/-- Thread `b` -/
def Cfg.progB (c : Cfg) : List Act :=
  .recv 0 :: (c.task ++
    match c.ack with
    | .handler => [.send 1]
    | .future => c.complete ++ [.send 1]
    | .never => c.complete)

end Cobalt.Xthr
