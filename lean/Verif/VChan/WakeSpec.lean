import Verif.VChan.Model
/-!
# What C98 says
-/
namespace Cobalt.VChan

open Chan (Status Tok)

/-- Nobody cancels or interrupts an operation that has been woken and not yet run: neither directly nor as a loser of
the race that begins a transaction while the event is processed. -/
def Leaves (s : St) : Ev → Prop
  | .cancelR i => Tok.r i ∉ s.posted
  | .cancelW i => Tok.w i ∉ s.posted
  | .intR i => Tok.r i ∉ s.posted
  | .intW i => Tok.w i ∉ s.posted
  | .awaitR _ _ _ hits => ∀ x ∈ hits, x ∉ s.posted
  | .awaitW _ _ _ hits => ∀ x ∈ hits, x ∉ s.posted
  | _ => True

def LeavesAll (s : St) : List Ev → Prop
  | [] => True
  | e :: es => Leaves s e ∧ LeavesAll (s.step e) es

instance (s : St) (e : Ev) : Decidable (Leaves s e) := by
  unfold Leaves; split <;> infer_instance

instance decLeavesAll (s : St) : (es : List Ev) → Decidable (LeavesAll s es)
  | [] => .isTrue trivial
  | e :: es =>
    have := decLeavesAll (s.step e) es
    inferInstanceAs (Decidable (_ ∧ _))

/-- The counter does not wrap around: it changes by at most one. -/
def Counts (s s' : St) : Prop := s'.n.toNat ≤ s.n.toNat + 1 ∧ s.n.toNat ≤ s'.n.toNat + 1

def CountsAll (s : St) : List Ev → Prop
  | [] => True
  | e :: es => Counts s (s.step e) ∧ CountsAll (s.step e) es

instance (s s' : St) : Decidable (Counts s s') := inferInstanceAs (Decidable (_ ∧ _))

instance decCountsAll (s : St) : (es : List Ev) → Decidable (CountsAll s es)
  | [] => .isTrue trivial
  | e :: es =>
    have := decCountsAll (s.step e) es
    inferInstanceAs (Decidable (_ ∧ _))

/-- With nothing scheduled, nobody waits for something that is there: a suspended read means that no token is stored
and no write is suspended, a suspended write that there is no room and no read is suspended. -/
def NoLostWakeUp (s : St) : Prop := s.posted = [] →
  (∀ i, (s.R i).status = .susp → s.n.toNat = 0 ∧ ∀ k, (s.W k).status ≠ .susp) ∧
  (∀ i, (s.W i).status = .susp → s.limit.toNat ≤ s.n.toNat ∧ ∀ k, (s.R k).status ≠ .susp)

/-- **C98**, in full: with any number of producers and consumers. -/
def C98 : Prop := ∀ (l : BitVec 64) (es : List Ev), (exec l es).ub = false → NoLostWakeUp (exec l es)

end Cobalt.VChan
