import Verif.Oper.Spec

/-!
# When exactly awaiting an operation goes right

The indicator of immediate work is on while work runs that has not run other immediate
work to its end. It stays on when an exception leaves the work.
-/
namespace Cobalt.Oper

/-- Whether the indicator is on at the end of a script, or when the script invokes the
handler. `on`: it is on when the script begins. -/
def mark (work on : Bool) : Act → Bool
  | .seq a b => if fate work a = some .kept then mark work (mark work on a) b else mark work on a
  | .exec a =>
    match fate true a with
    | some .thrown => mark true true a
    | some (.completed _) => mark true true a
    | _ => false
  | .attempt a => mark work on a
  | _ => on

/-- The cases in which all goes right. A handler that is destroyed in `await_suspend` never
is. An invocation in `await_suspend` needs the indicator, a failure must not find it, and a
handler kept for later with the indicator on may be destroyed but not be invoked. -/
def Right (on : Bool) : End → Option Later → Prop
  | .kept, _ => False
  | .dropped, _ => False
  | .completed _, _ => on = true
  | .thrown, _ => on = false
  | .stored, some (.done _) => on = false
  | .stored, some (.dispatch _) => on = false
  | .stored, _ => True

end Cobalt.Oper
