import Verif.VChan.WakeLemmas
import Verif.VChan.WakeSpec
/-!
# Which states of a channel<void> are going to leave somebody asleep

Only what is in the state is used: the two queues, the counter, and what the posted resumptions are going to report.
-/
namespace Cobalt.VChan

open Chan (Status Tok)

/-- A posted write that is going to report success, and then looks for a reader to wake (src/channel.cpp:111-121). -/
def St.givesW (s : St) : Tok → Bool
  | .w i => !(s.W i).closedF && !(s.W i).cancelled
  | .r _ => false

/-- A posted write whose token has been handed over already (src/channel.cpp:106-107). -/
def St.handedW (s : St) : Tok → Bool
  | .w i => (s.W i).direct
  | .r _ => false

/-- A posted read that is going to report success, and then looks for a writer to wake (src/channel.cpp:67-77). -/
def St.givesR (s : St) : Tok → Bool
  | .r i => !(s.R i).cancelled
  | .w _ => false

/-- A posted read that has been given its token already (src/channel.cpp:62-63). -/
def St.handedR (s : St) : Tok → Bool
  | .r i => (s.R i).direct
  | .w _ => false

/-- There is a suspended read behind all those that the posted writes are going to wake, and there are more tokens than
the woken reads, the ones to be woken for writes already handed over included, are going to take. -/
def SleepR (s : St) : Prop :=
  (∃ i ∈ s.rq.drop (s.posted.countP s.givesW), (s.R i).status = .susp) ∧
  s.posted.countP s.handedW + s.posted.countP s.takes < s.n.toNat

/-- There is a suspended write behind all those that the posted reads are going to wake, and there is more room than
the woken writes are going to fill. -/
def SleepW (s : St) : Prop :=
  (∃ i ∈ s.wq.drop (s.posted.countP s.givesR), (s.W i).status = .susp) ∧
  s.n.toNat + (s.posted.countP s.handedR + s.posted.countP s.puts) < s.limit.toNat

end Cobalt.VChan
