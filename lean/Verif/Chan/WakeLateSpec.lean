import Verif.Chan.WakeLemmas
import Verif.Chan.WakeSpec
/-!
# Which states of a channel<T> are going to leave somebody asleep

Only what is in the state is used: the two queues, the buffer, and what the posted resumptions are going to report.
-/
namespace Cobalt.Chan

/-- A posted write that is going to report success, and then looks for a reader to wake (impl/channel.hpp:310-321). -/
def St.givesW (s : St) : Tok → Bool
  | .w i => !(s.W i).closedF && !(s.W i).cancelled
  | .r _ => false

/-- A posted write whose value has been handed over already (impl/channel.hpp:243-262). -/
def St.handedW (s : St) : Tok → Bool
  | .w i => (s.W i).direct
  | .r _ => false

/-- A posted read that is going to report success, and then looks for a writer to wake (impl/channel.hpp:189-199). -/
def St.givesR (s : St) : Tok → Bool
  | .r i => !(s.R i).cancelled
  | .w _ => false

/-- A posted read that has been given its value already (impl/channel.hpp:121-140). -/
def St.handedR (s : St) : Tok → Bool
  | .r i => (s.R i).direct.isSome
  | .w _ => false

/-- There is a suspended read behind all those that the posted writes are going to wake, and there are more values than
the woken reads, the ones to be woken for writes already handed over included, are going to take. -/
def SleepR (s : St) : Prop :=
  (∃ i ∈ s.rq.drop (s.posted.countP s.givesW), (s.R i).status = .susp) ∧
  s.posted.countP s.handedW + s.posted.countP s.takes < s.buf.length

/-- There is a suspended write behind all those that the posted reads are going to wake, and there is more room than
the woken writes are going to fill. -/
def SleepW (s : St) : Prop :=
  (∃ i ∈ s.wq.drop (s.posted.countP s.givesR), (s.W i).status = .susp) ∧
  s.buf.length + (s.posted.countP s.handedR + s.posted.countP s.puts) < s.cap

end Cobalt.Chan
