import Verif.Comb.Trace
/-! What a race has recorded. -/
namespace Cobalt.Comb

/-- The awaitable with index `ix` and how it completed. -/
def want (es : List Ev) (ix : Option Nat) : Option (Nat × Out) :=
  ix.bind fun i => (outcome es i).map fun o => (i, o)

def errOf : Nat × Out → Option Nat
  | (_, .err e) => some e
  | _ => none

def okOf : Nat × Out → Option (Nat × Nat)
  | (i, .ok v) => some (i, v)
  | _ => none

/-- Awaitables without a value are not used in a ranged race and begin no transactions. -/
def Cfg.Plain (c : Cfg) (es : List Ev) : Prop :=
  ∀ i, c.void i = true → c.ranged = false ∧ Ev.txn i ∉ es

structure RH (c : Cfg) (s : St) (es : List Ev) : Prop where
  err : s.err = (want es s.index).bind errOf
  result : c.allVoid = false → s.result = (want es s.index).bind okOf

theorem RH.init (c : Cfg) : RH c {} [] := ⟨rfl, fun _ => rfl⟩

theorem RH.sim {c : Cfg} {s t : St} {es : List Ev} (h : RH c s es) (k : Sim s t) : RH c t es :=
  ⟨by rw [k.err, k.index]; exact h.err, by rw [k.result, k.index]; exact h.result⟩

theorem want_quiet (es : List Ev) (ix : Option Nat) {e : Ev} (h : e.ends = none) : want (es ++ [e]) ix = want es ix := by
  unfold want
  congr 1
  funext i
  rw [outcome_snoc, h]
  simp

theorem want_other {es : List Ev} {j i : Nat} {e : Ev} {o : Out} (h : e.ends = some (i, o)) (hj : j ≠ i) :
    want (es ++ [e]) (some j) = want es (some j) := by
  unfold want
  simp [outcome_snoc, h, Ne.symm hj]

theorem want_new {es : List Ev} {i : Nat} {e : Ev} {o : Out} (h : e.ends = some (i, o)) (hn : outcome es i = none) :
    want (es ++ [e]) (some i) = some (i, o) := by
  unfold want
  simp [outcome_snoc, h, hn]

theorem winner_cases : ∀ (es : List Ev) (i : Nat), winner es = some i → Ev.txn i ∈ es ∨ (outcome es i).isSome = true
  | [], _, h => by simp [winner] at h
  | e :: es, i, h => by
    cases hc : e.claims with
    | none =>
      have h' : winner es = some i := by simpa [winner, hc] using h
      have he : e.ends = none := by cases e <;> simp_all [Ev.claims, Ev.ends]
      rcases winner_cases es i h' with h1 | h1
      · exact Or.inl (List.mem_cons_of_mem _ h1)
      · right; simpa [outcome, he] using h1
    | some j =>
      have h' : j = i := by simpa [winner, hc] using h
      subst h'
      cases e <;> simp [Ev.claims] at hc <;> subst hc
      · right; simp [outcome, Ev.ends]
      · right; simp [outcome, Ev.ends]
      · right; simp [outcome, Ev.ends]
      · left; simp

theorem RH.record {c : Cfg} (hk : c.kind = .race) {s : St} {es : List Ev} (h : RH c s es) {e : Ev} {i : Nat} {o : Out}
    {b : Bool} (h1 : e.ends = some (i, o)) (hn : outcome es i = none)
    (hp : c.void i = true → c.ranged = false ∧ s.index ≠ some i) : RH c (s.record c i o b) (es ++ [e]) := by
  have hw := want_new h1 hn
  have hix := record_index c hk s i o b
  cases hs : s.index with
  | none =>
    rw [hs] at hix
    have hix : (s.record c i o b).index = some i := hix
    have e1 := h.err
    have e2 := h.result
    rw [hs] at e1 e2
    constructor
    · rw [hix, hw]
      simp only [want, Option.bind_none] at e1
      simp only [St.record, hk]
      cases b <;> cases o <;> by_cases hv : c.void i = true <;>
        simp_all [St.raceSuspended, St.raceReady, errOf] <;> (repeat' split) <;> simp_all
    · intro ha
      rw [hix, hw]
      have e2 := e2 ha
      simp only [want, Option.bind_none] at e2
      simp only [St.record, hk]
      cases b <;> cases o <;> by_cases hv : c.void i = true <;>
        simp_all [St.raceSuspended, St.raceReady, okOf]
  | some j =>
    rw [hs] at hix
    have hix : (s.record c i o b).index = some j := hix
    have e1 := h.err
    have e2 := h.result
    rw [hs] at e1 e2
    by_cases hj : j = i
    · subst hj
      have hv : c.void j = false := by
        cases hv : c.void j
        · rfl
        · exact absurd hs (hp hv).2
      have hw0 : want es (some j) = none := by simp [want, hn]
      rw [hw0] at e1 e2
      constructor
      · rw [hix, hw]
        simp only [St.record, hk]
        cases b <;> cases o <;> simp_all [St.raceSuspended, St.raceReady, errOf]
      · intro ha
        rw [hix, hw]
        have e2 := e2 ha
        simp only [St.record, hk]
        cases b <;> cases o <;> simp_all [St.raceSuspended, St.raceReady, okOf]
    · have hji : ¬ (some j = some i) := by simpa using hj
      constructor
      · rw [hix, want_other h1 hj, ← e1]
        simp only [St.record, hk]
        cases b <;> cases o <;> by_cases hv : c.void i = true <;>
          simp_all [St.raceSuspended, St.raceReady]
      · intro ha
        rw [hix, want_other h1 hj, ← e2 ha]
        simp only [St.record, hk]
        cases b <;> cases o <;> by_cases hv : c.void i = true <;>
          simp_all [St.raceSuspended, St.raceReady]

theorem RH.recordThrown {c : Cfg} (hk : c.kind = .race) {s : St} {es : List Ev} (h : RH c s es) {e : Ev} {i x : Nat}
    (h1 : e.ends = some (i, .err x)) (hn : outcome es i = none) : RH c (s.recordThrown c i x) (es ++ [e]) := by
  have hw := want_new h1 hn
  have hix := recordThrown_index c hk s i x
  have e1 := h.err
  have e2 := h.result
  cases hs : s.index with
  | none =>
    rw [hs] at hix e1 e2
    have hix : (s.recordThrown c i x).index = some i := hix
    constructor
    · rw [hix, hw]; simp_all [St.recordThrown, errOf]
    · intro ha
      have e2 := e2 ha
      rw [hix, hw]; simp_all [St.recordThrown, okOf, want]
  | some j =>
    rw [hs] at hix e1 e2
    have hix : (s.recordThrown c i x).index = some j := hix
    by_cases hj : j = i
    · subst hj
      have hw0 : want es (some j) = none := by simp [want, hn]
      rw [hw0] at e1 e2
      constructor
      · rw [hix, hw]; simp_all [St.recordThrown, errOf]
      · intro ha
        have e2 := e2 ha
        rw [hix, hw]; simp_all [St.recordThrown, okOf]
    · constructor
      · rw [hix, want_other h1 hj, ← e1]; simp_all [St.recordThrown]
      · intro ha
        rw [hix, want_other h1 hj, ← e2 ha]; simp_all [St.recordThrown]

theorem RH.step {c : Cfg} (hk : c.kind = .race) {s : St} (hi : Inv c s s.tags) {es : List Ev} (hh : Hist c s es)
    (h : RH c s es) {e : Ev} (hu : s.ub = false) (hcan : s.can c e = true) (hp : c.Plain es) :
    RH c (s.step c e) (es ++ [e]) := by
  have hs := step_sim hi hu hcan
  have none_of : ∀ i, (s.child i).ended = false → outcome es i = none := by
    intro i hi; have := hh.ended i; rw [hi] at this; simpa using this.symm
  have plain : ∀ i, outcome es i = none → c.void i = true → c.ranged = false ∧ s.index ≠ some i := by
    intro i hn hv
    refine ⟨(hp i hv).1, fun hx => ?_⟩
    rw [hh.race hk] at hx
    rcases winner_cases es i hx with h1 | h1
    · exact (hp i hv).2 h1
    · rw [hn] at h1; simp at h1
  cases e <;> simp only at hs
  case ready i o d =>
    have hx : s.stack.head? = some (.asking i) := by simpa [St.can] using hcan
    have ht := tags_of_head hx
    have hA := (hi.asking i).2 (by rw [ht]; simp [Frame.tag])
    have hn := none_of i (by simp [hA, CS.ended])
    exact (RH.record hk (s := { s with stack := s.stack.tail }) ⟨h.err, h.result⟩ rfl hn (plain i hn)).sim hs
  case thrown i x d =>
    have hn : outcome es i = none := by
      apply none_of
      simp only [St.can, Bool.or_eq_true, beq_iff_eq, Bool.and_eq_true] at hcan
      rcases hcan with hh | ⟨-, hh⟩
      · have ht := tags_of_head hh
        have := (hi.asking i).2 (by rw [ht]; simp [Frame.tag])
        simp [this, CS.ended]
      · simp [hh, CS.ended]
    exact (RH.recordThrown hk (s := { s with stack := s.stack.tail }) ⟨h.err, h.result⟩ rfl hn).sim hs
  case fin i o =>
    simp only [St.can, Bool.and_eq_true, beq_iff_eq] at hcan
    have hn := none_of i (by simp [hcan.1, CS.ended])
    exact (h.record hk rfl hn (plain i hn)).sim hs
  case txn i =>
    simp only [St.can, Bool.and_eq_true, beq_iff_eq] at hcan
    have hn := none_of i (by simp [hcan.1.2, CS.ended])
    refine RH.sim ?_ hs
    cases hx : s.index with
    | none =>
      simp only [hx, ↓reduceIte]
      have e1 := h.err
      have e2 := h.result
      rw [hx] at e1 e2
      have hw : want (es ++ [Ev.txn i]) (some i) = none := by rw [want_quiet _ _ rfl]; simp [want, hn]
      constructor
      · show s.err = (want _ (some i)).bind errOf
        rw [hw, e1]; rfl
      · intro ha
        show s.result = (want _ (some i)).bind okOf
        rw [hw, e2 ha]; rfl
    | some j =>
      rw [if_neg (by simp [hx])]
      exact ⟨by rw [want_quiet _ _ rfl]; exact h.err, by rw [want_quiet _ _ rfl]; exact h.result⟩
  case notReady i =>
    refine RH.sim ?_ hs
    exact ⟨by rw [want_quiet _ _ rfl]; exact h.err, by rw [want_quiet _ _ rfl]; exact h.result⟩
  all_goals exact RH.sim ⟨by rw [want_quiet _ _ rfl]; exact h.err, by rw [want_quiet _ _ rfl]; exact h.result⟩ hs

theorem RH.steps {c : Cfg} (hc : c.Ok) (hk : c.kind = .race) : ∀ (es pre : List Ev) {s : St}, Inv c s s.tags →
    Hist c s pre → RH c s pre → Legal c s es → c.Plain (pre ++ es) →
    (s.steps c es).ub = true ∨ RH c (s.steps c es) (pre ++ es)
  | [], pre, _, _, _, h, _, _ => by right; rw [List.append_nil]; exact h
  | e :: es, pre, s, hi, hh, h, hl, hp => by
    by_cases hu : s.ub = true
    · exact Or.inl (steps_ub _ hu)
    · have hu : s.ub = false := by simpa using hu
      have hp' : c.Plain pre := fun i hv => ⟨(hp i hv).1, fun hm => (hp i hv).2 (List.mem_append_left _ hm)⟩
      rcases hi.step hc e with h1 | h1
      · exact Or.inl (steps_ub es h1)
      · rcases hh.step hi hu hl.1 with h2 | h2
        · exact Or.inl (steps_ub es h2)
        · have e1 : pre ++ e :: es = (pre ++ [e]) ++ es := by simp
          rw [e1] at hp ⊢
          exact RH.steps hc hk es (pre ++ [e]) h1 h2 (h.step hk hi hh hu hl.1 hp') hl.2 hp

theorem RH.run {c : Cfg} (hc : c.Ok) (hk : c.kind = .race) {es : List Ev} (hl : Legal c {} es) (hp : c.Plain es) :
    (St.run c es).ub = true ∨ RH c (St.run c es) es :=
  RH.steps hc hk es [] (Inv.init c) (Hist.init c) (RH.init c) hl hp

end Cobalt.Comb
