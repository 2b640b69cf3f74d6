import Verif.Task.Model
import Verif.Group.Model
import Verif.Prom.Model
import Verif.With.Model
/-!
# Promises, tasks, `wait_group` and `with` against the tests of the repository

Sources: `/repo/test/{promise,task,wait_group,with,race}.cpp`. Tests of the models, as in `Verif.Conf.Chan`.
-/
namespace Cobalt.Conf.R

/-! ## Promises: promise 0, coroutine 0, awaits 1, 2, … -/

abbrev prom (es : List Prom.Ev) : Prom.St := Prom.St.run (.create 0 0 :: es)

/-- `get` (promise.cpp:119-126): a promise that failed at once is ready, and `get` throws. -/
example : ((prom [.finish 0 (.exc 1)]).recv 0).any (·.ready) = true ∧
    ((prom [.finish 0 (.exc 1)]).recv 0).map (fun R => (Prom.St.getResult R).map (·.2)) = some (some (Prom.Got.err (.user 1))) := by decide

/-- `throw_cpl_delay` (promise.cpp:141-144) and `cancel_int` (:135-138) -/
example : (prom [.await 1 0, .finish 0 (.exc 1)]).log = [(1, .err (.user 1))] ∧
    (prom [.finish 0 (.exc 1), .await 1 0]).log = [(1, .err (.user 1))] := by decide

/-- `move_only` (promise.cpp:174-180): `p = f()` after `co_await p`. The test expects nothing but that this goes well; in the
model it is undefined, since `*reference` (detail/promise.hpp:136) is read after the frame of the first coroutine is gone. It
would be well if the pointer were null by then. -/
example : (prom [.finish 0 (.val 7), .await 1 0, .create 1 1, .finish 1 (.val 8), .leave 0]).ub = false ∧
    (prom [.finish 0 (.val 7), .await 1 0, .create 1 1, .finish 1 (.val 8), .leave 0, .moveA 0 1]).ub = true := by decide

/-- `d1` in `race_/variadic` (race.cpp:60-72): after the race interrupted it, it is valid and not ready; then it gives 100 and
is ready and no longer valid. -/
example : let s := prom [.await 1 0, .interrupt 1]
    s.log = [(1, .err .detached)] ∧ (s.recv 0).map (fun R => (R.toBool, R.ready)) = some (true, false) ∧
    let t := s.steps [.await 2 0, .finish 0 (.val 100)]
    t.log.head? = some (2, .val 100) ∧ (t.recv 0).map (fun R => (R.toBool, R.ready)) = some (false, true) := by decide

/-- `vec[2]` in `list_step` (race.cpp:95-99): cancelled, it is valid until it is awaited, and fails as often as it is awaited. -/
example : let s := prom [.await 1 0, .interrupt 1, .cancel 0]
    (s.recv 0).map (·.toBool) = some true ∧
    let t := s.steps [.await 2 0, .finish 0 (.exc 5), .await 3 0]
    t.log.take 2 = [(3, .err (.user 5)), (2, .err (.user 5))] ∧ (t.recv 0).map (·.toBool) = some false := by decide

/-! ## Tasks -/

/-- `reawait` (task.cpp:259-264): awaiting a `void` task again does not throw. For a task with a value the model says that the
value was moved from. -/
example : (Task.St.run [.create 0 0, .await 1 0, .finish 0 (.val 0), .await 2 0]).log = [(2, .moved), (1, .val 0)] := by decide

/-- `cancel_task_` (task.cpp:320-327): a signal before the coroutine was started or after it ended does no harm. -/
example : (Task.St.run [.create 0 0, .spawn 1 0 1, .cancel 1, .begin 0, .finish 0 (.val 0), .deliver 1]).ub = false ∧
    (Task.St.run [.create 0 0, .spawn 1 0 1, .begin 0, .finish 0 (.val 0), .cancel 1, .deliver 1]).ub = false ∧
    (Task.St.run [.create 0 0, .spawn 1 0 1, .cancel 1, .begin 0, .finish 0 (.val 0), .deliver 1]).log = [(1, .val 0)] := by decide

/-! ## `wait_group` -/

/-- The group of `grp` (wait_group.cpp:34-60) as far as `wait_one`. -/
abbrev grp : Group.St := Group.St.run 0 1 [.push 0, .push 1, .complete 1 .ok, .push 2, .push 3]

example : grp.members.length = 4 ∧ (grp.step .reap).reaps = [1] ∧ (grp.step .reap).members.length = 3 ∧
    let s := grp.steps [.reap, .waitOne 7 [0, 1, 2], .complete 2 .ok]
    s.members.map (·.id) = [0, 3] ∧ s.log = [(7, .ok)] ∧
    let t := s.steps [.cancel 7, .waitAll 8, .complete 0 (.err 5), .complete 3 (.err 5)]
    t.members = [] ∧ t.log = [(8, .ok), (7, .ok)] ∧ t.ub = false := by decide

/-! ## `with` -/

/-- A teardown that ends as it should and leaves the exception alone. -/
abbrev exit : With.Tear := ⟨.ret 0, id⟩

/-- `sync` and `async` (with.cpp:67-106): the teardown is given the exception, and `co_await` throws it. -/
example : (With.St.run ⟨false, some (.throw 42), none⟩ [.start, .tearEnds exit]).calls =
      [.func, .teardown (some 42), .resume (.throw 42)] ∧
    (With.St.run ⟨false, none, none⟩ [.start, .funcEnds (.throw 42), .tearEnds exit]).calls =
      [.func, .teardown (some 42), .resume (.throw 42)] := by decide

/-- `sync_int` and `async_int` (with.cpp:109-147) -/
example : (With.St.run ⟨true, some (.ret 23), none⟩ [.start, .tearEnds exit]).calls =
      [.func, .teardown none, .resume (.value 23)] ∧
    (With.St.run ⟨true, none, none⟩ [.start, .funcEnds (.ret 42), .tearEnds exit]).calls =
      [.func, .teardown none, .resume (.value 42)] := by decide

/-- `sync_int_throw` and `async_int_throw` (with.cpp:150-190) -/
example : (With.St.run ⟨true, some (.throw 9), none⟩ [.start, .tearEnds exit]).calls =
      [.func, .teardown (some 9), .resume (.throw 9)] ∧
    (With.St.run ⟨true, none, none⟩ [.start, .funcEnds (.throw 9), .tearEnds exit]).calls =
      [.func, .teardown (some 9), .resume (.throw 9)] := by decide

end Cobalt.Conf.R
