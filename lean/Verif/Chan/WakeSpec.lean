import Verif.Chan.Model
/-!
# What C97 says
-/
namespace Cobalt.Chan

/-- Nobody cancels or interrupts an operation that has been woken and not yet run: neither directly nor as a loser of
the race that begins a transaction while the event is processed. -/
def Leaves (s : St) : Ev → Prop
  | .cancelR i => Tok.r i ∉ s.posted
  | .cancelW i => Tok.w i ∉ s.posted
  | .intR i => Tok.r i ∉ s.posted
  | .intW i => Tok.w i ∉ s.posted
  | .awaitR _ _ _ hits => ∀ x ∈ hits, x ∉ s.posted
  | .awaitW _ _ _ hits => ∀ x ∈ hits, x ∉ s.posted
  | _ => True

def LeavesAll (s : St) : List Ev → Prop
  | [] => True
  | e :: es => Leaves s e ∧ LeavesAll (s.step e) es

instance (s : St) (e : Ev) : Decidable (Leaves s e) := by
  unfold Leaves; split <;> infer_instance

instance decLeavesAll (s : St) : (es : List Ev) → Decidable (LeavesAll s es)
  | [] => .isTrue trivial
  | e :: es =>
    have := decLeavesAll (s.step e) es
    inferInstanceAs (Decidable (_ ∧ _))

/-- With nothing scheduled, nobody waits for something that is there: a suspended read means that nothing is buffered
and no write is suspended, a suspended write that the buffer is full and no read is suspended. -/
def NoLostWakeUp (s : St) : Prop := s.posted = [] →
  (∀ i, (s.R i).status = .susp → s.buf = [] ∧ ∀ k, (s.W k).status ≠ .susp) ∧
  (∀ i, (s.W i).status = .susp → s.buf.length = s.cap ∧ ∀ k, (s.R k).status ≠ .susp)

/-- **C97**, in full: with any number of producers and consumers. -/
def C97 : Prop := ∀ (cap : Nat) (es : List Ev), (exec cap es).ub = false → NoLostWakeUp (exec cap es)

end Cobalt.Chan
