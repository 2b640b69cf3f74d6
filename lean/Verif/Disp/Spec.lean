import Verif.Disp.Model
/-! # What C101 says -/
namespace Cobalt.Disp

/-- The messages and the subscriptions that the loop was given. -/
def msgs (out : List Res) : List Nat := out.filterMap fun
  | .msg m => some m
  | _ => none

def subs (out : List Res) : List Nat := out.filterMap fun
  | .sub w => some w
  | _ => none

/-- The channel has taken subscription `w` over: its session was told so, or will be. -/
def Taken (s : St) (w : Nat) : Prop := (s.ch.W w).direct = true ∨ Chan.Obs.doneW w .ok ∈ s.ch.log

/-- Between two rounds: every message that was yielded has been given to the loop, in order, or is held by the
generator, and every subscription that the channel has taken over has been given to the loop or is in the buffer
of the channel. -/
def NoLoss (s : St) : Prop :=
  s.race = none → s.yields = msgs s.out ++ s.gen.result.toList ∧ ∀ w, Taken s w → w ∈ subs s.out ∨ w ∈ s.ch.buf

/-- C101. -/
def C101 : Prop := ∀ cap es, NoLoss (St.exec cap es)

/-- The generator wins although the read has been handed a subscription by a session that was waiting: the message
comes when the read has not been resumed yet, or is there already and the read was started first. -/
def Steals (s : St) : E → Prop
  | .yield _ => s.race.isSome ∧ s.gen.phase = .running ∧ s.gen.awaited.isSome ∧ (s.ch.R s.rd).status = .susp ∧
      (s.ch.R s.rd).direct.isSome
  | .go swap _ => s.race = none ∧ swap = true ∧ s.gen.result.isSome ∧ s.ch.buf = [] ∧ s.ch.wq ≠ []
  | _ => False

instance (s : St) (e : E) : Decidable (Steals s e) := by
  unfold Steals; split <;> infer_instance

/-- How often. -/
def stolen : St → List E → Nat
  | _, [] => 0
  | s, e :: es => (if Steals s e then 1 else 0) + stolen (s.step e) es

/-- The race is awaited while a session waits. -/
def Busy (s : St) : E → Prop
  | .go _ _ => s.ch.wq ≠ []
  | _ => False

instance (s : St) (e : E) : Decidable (Busy s e) := by
  unfold Busy; split <;> infer_instance

/-- It never is. -/
def Calm : St → List E → Prop
  | _, [] => True
  | s, e :: es => ¬ Busy s e ∧ Calm (s.step e) es

instance Calm.dec : (s : St) → (es : List E) → Decidable (Calm s es)
  | _, [] => isTrue trivial
  | s, e :: es =>
    have := Calm.dec (s.step e) es
    inferInstanceAs (Decidable (¬ Busy s e ∧ Calm (s.step e) es))

end Cobalt.Disp
