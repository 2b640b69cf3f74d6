import Verif.Comb.RaceHist
/-! What a race has recorded, without exceptions. -/
namespace Cobalt.Comb

/-- The error a race keeps because of this event. `w` is the winner, `t` says that it began a
transaction. -/
def Ev.blames (c : Cfg) (w : Nat) (t : Bool) : Ev → Option Nat
  | .ready i (.err e) _ => if i = w ∨ (c.ranged = true ∧ c.void i = true) then some e else none
  | .thrown i e _ => if i = w then some e else none
  | .fin i (.err e) => if i = w ∧ ¬ (c.void i = true ∧ t = true) then some e else none
  | _ => none

/-- The winner began a transaction. -/
def txnd (es : List Ev) (w : Nat) : Bool := es.any fun e => e == .txn w

/-- The last error kept. -/
def blame (c : Cfg) (es : List Ev) : Option Nat :=
  (winner es).bind fun w => es.reverse.findSome? (Ev.blames c w (txnd es w))

theorem blames_claims {c : Cfg} {w : Nat} {t : Bool} {e : Ev} (h : e.claims = none) : e.blames c w t = none := by
  cases e <;> simp_all [Ev.claims, Ev.blames]

theorem winner_none {es : List Ev} (h : winner es = none) : ∀ e ∈ es, e.claims = none := by
  unfold winner at h
  rw [List.head?_eq_none_iff] at h
  intro e he
  cases hc : e.claims with
  | none => rfl
  | some i =>
    have : i ∈ es.filterMap Ev.claims := List.mem_filterMap.2 ⟨e, he, hc⟩
    rw [h] at this
    cases this

theorem blame_first {c : Cfg} {es : List Ev} {e : Ev} (h : winner es = none) :
    blame c (es ++ [e]) = e.claims.bind fun w => e.blames c w false := by
  unfold blame
  rw [winner_snoc, h]
  simp only [Option.none_or]
  cases hc : e.claims with
  | none => rfl
  | some w =>
    simp only [Option.bind_some, List.reverse_append, List.reverse_cons, List.reverse_nil, List.nil_append,
      List.cons_append, List.findSome?_cons]
    have h0 : ∀ t, es.reverse.findSome? (Ev.blames c w t) = none := fun t =>
      List.findSome?_eq_none_iff.2 fun x hx => blames_claims (winner_none h x (List.mem_reverse.1 hx))
    have h1 : e.blames c w (txnd (es ++ [e]) w) = e.blames c w false := by
      have hes : txnd es w = false := by
        unfold txnd
        rw [List.any_eq_false]
        intro x hx hxe
        have := winner_none h x hx
        have hxe : x = .txn w := by simpa using hxe
        rw [hxe] at this
        cases this
      cases e
      case txn i => rfl
      all_goals
        have : ∀ x : Ev, txnd (es ++ [x]) w = (txnd es w || x == .txn w) := fun x => by simp [txnd]
        rw [this, hes]
        rfl
    rw [h1, h0]
    cases e.blames c w false <;> rfl

theorem blame_more {c : Cfg} {es : List Ev} {e : Ev} {w : Nat} (h : winner es = some w)
    (ht : e = .txn w → txnd es w = true) :
    blame c (es ++ [e]) = (e.blames c w (txnd es w)).or (blame c es) := by
  have h1 : txnd (es ++ [e]) w = txnd es w := by
    have : txnd (es ++ [e]) w = (txnd es w || e == .txn w) := by simp [txnd]
    rw [this]
    by_cases he : e = .txn w
    · rw [ht he]; rfl
    · simp [he]
  unfold blame
  rw [winner_snoc, h]
  simp only [Option.some_or, Option.bind_some, List.reverse_append, List.reverse_cons, List.reverse_nil,
    List.nil_append, List.cons_append, List.findSome?_cons, h1]
  cases e.blames c w (txnd es w) <;> rfl

structure RA (c : Cfg) (s : St) (es : List Ev) : Prop where
  err : s.err = blame c es
  result : c.allVoid = false → s.result = (want es s.index).bind okOf

theorem RA.init (c : Cfg) : RA c {} [] := ⟨rfl, fun _ => rfl⟩

theorem RA.sim {c : Cfg} {s t : St} {es : List Ev} (h : RA c s es) (k : Sim s t) : RA c t es :=
  ⟨by rw [k.err]; exact h.err, by rw [k.result, k.index]; exact h.result⟩

/-- The awaitables of a range are of one type. -/
def Cfg.Uniform (c : Cfg) : Prop := c.ranged = true → ∀ i, c.void i = c.allVoid

theorem RA.quiet {c : Cfg} {s : St} {es : List Ev} (h : RA c s es) {e : Ev} (h1 : e.claims = none) :
    RA c s (es ++ [e]) := by
  have he : e.ends = none := by cases e <;> simp_all [Ev.claims, Ev.ends]
  refine ⟨?_, fun ha => by rw [want_quiet _ _ he]; exact h.result ha⟩
  rw [h.err]
  cases hw : winner es with
  | none => rw [blame_first hw, h1]; simp [blame, hw]
  | some w =>
    rw [blame_more hw (fun hx => by rw [hx] at h1; cases h1), blames_claims h1]
    rfl

theorem blame_none {c : Cfg} {es : List Ev} (h : winner es = none) : blame c es = none := by simp [blame, h]

theorem RA.ready {c : Cfg} (hc : c.Uniform) (hk : c.kind = .race) {s : St} {es : List Ev} (h : RA c s es)
    (hi : s.index = winner es) {i : Nat} {o : Out} {d : Bool} (hn : outcome es i = none) :
    RA c (s.record c i o true) (es ++ [.ready i o d]) := by
  have hw : want (es ++ [Ev.ready i o d]) (some i) = some (i, o) := want_new rfl hn
  have hix := record_index c hk s i o true
  have e1 := h.err
  have e2 := h.result
  clear h
  cases hs : s.index with
  | none =>
    rw [hs] at hix hi e2
    replace hi := hi.symm
    have hix : (s.record c i o true).index = some i := hix
    rw [blame_none hi] at e1
    constructor
    · rw [blame_first hi]
      clear hi
      simp only [St.record, hk, Ev.claims, Option.bind_some]
      by_cases hr : c.ranged = true <;> cases o <;> simp_all [St.raceReady, Ev.blames]
      split <;> simp_all
    · intro ha
      have hv : ¬ (c.ranged = true ∧ c.void i = true) := fun x => by
        have := hc x.1 i; rw [x.2, ha] at this; cases this
      rw [hix, hw]
      have e2 := e2 ha
      simp only [want, Option.bind_none] at e2
      clear hi
      simp only [St.record, hk]
      by_cases hr : c.ranged = true <;> cases o <;> simp_all [St.raceReady, okOf]
  | some j =>
    rw [hs] at hix hi e2
    replace hi := hi.symm
    have hix : (s.record c i o true).index = some j := hix
    constructor
    · rw [blame_more hi (by intro x; cases x)]
      clear hi
      simp only [St.record, hk]
      by_cases hv : c.ranged = true ∧ c.void i = true <;> by_cases hj : j = i <;>
        by_cases hr : c.ranged = true <;> cases o <;> simp_all [St.raceReady, Ev.blames]
      all_goals (rw [if_neg (fun x => hj x.symm)]; rfl)
    · intro ha
      have hv : ¬ (c.ranged = true ∧ c.void i = true) := fun x => by
        have := hc x.1 i; rw [x.2, ha] at this; cases this
      have e2 := e2 ha
      rw [hix]
      by_cases hj : j = i
      · subst hj
        have hw0 : want es (some j) = none := by simp [want, hn]
        rw [hw0] at e2
        rw [hw]
        clear hi
        simp only [St.record, hk]
        by_cases hr : c.ranged = true <;> cases o <;> simp_all [St.raceReady, okOf]
      · rw [want_other (e := .ready i o d) rfl hj, ← e2]
        have hji : ¬ (some j = some i) := by simpa using hj
        clear hi
        simp only [St.record, hk]
        by_cases hr : c.ranged = true <;> cases o <;> simp_all [St.raceReady]

theorem txnd_iff {es : List Ev} {w : Nat} : txnd es w = true ↔ Ev.txn w ∈ es := by
  simp [txnd]

theorem RA.fin {c : Cfg} (hk : c.kind = .race) {s : St} {es : List Ev} (h : RA c s es)
    (hi : s.index = winner es) {i : Nat} {o : Out} (hn : outcome es i = none) :
    RA c (s.record c i o false) (es ++ [.fin i o]) := by
  have hw : want (es ++ [Ev.fin i o]) (some i) = some (i, o) := want_new rfl hn
  have hix := record_index c hk s i o false
  have e1 := h.err
  have e2 := h.result
  clear h
  cases hs : s.index with
  | none =>
    rw [hs] at hix hi e2
    replace hi := hi.symm
    have hix : (s.record c i o false).index = some i := hix
    rw [blame_none hi] at e1
    constructor
    · rw [blame_first hi]
      clear hi
      simp only [St.record, hk, Ev.claims, Option.bind_some]
      by_cases hv : c.void i = true <;> cases o <;> simp_all [St.raceSuspended, Ev.blames]
      split <;> simp_all
    · intro ha
      rw [hix, hw]
      have e2 := e2 ha
      simp only [want, Option.bind_none] at e2
      clear hi
      simp only [St.record, hk]
      by_cases hv : c.void i = true <;> cases o <;> simp_all [St.raceSuspended, okOf]
  | some j =>
    rw [hs] at hix hi e2
    replace hi := hi.symm
    have hix : (s.record c i o false).index = some j := hix
    by_cases hj : j = i
    · subst hj
      have ht : txnd es j = true := by
        rcases winner_cases es j hi with h1 | h1
        · exact txnd_iff.2 h1
        · rw [hn] at h1; cases h1
      have hw0 : want es (some j) = none := by simp [want, hn]
      rw [hw0] at e2
      constructor
      · rw [blame_more hi (by intro x; cases x), ht]
        clear hi
        simp only [St.record, hk]
        by_cases hv : c.void j = true <;> cases o <;> simp_all [St.raceSuspended, Ev.blames]
        split <;> simp_all
      · intro ha
        rw [hix, hw]
        have e2 := e2 ha
        clear hi
        simp only [St.record, hk]
        by_cases hv : c.void j = true <;> cases o <;> simp_all [St.raceSuspended, okOf]
    · have hji : ¬ (some j = some i) := by simpa using hj
      constructor
      · rw [blame_more hi (by intro x; cases x)]
        clear hi
        simp only [St.record, hk]
        by_cases hv : c.void i = true <;> cases o <;> simp_all [St.raceSuspended, Ev.blames, Ne.symm]
      · intro ha
        rw [hix, want_other (e := .fin i o) rfl hj, ← e2 ha]
        clear hi
        simp only [St.record, hk]
        by_cases hv : c.void i = true <;> cases o <;> simp_all [St.raceSuspended]

theorem RA.thrown {c : Cfg} (hk : c.kind = .race) {s : St} {es : List Ev} (h : RA c s es)
    (hi : s.index = winner es) {i x : Nat} {d : Bool} (hn : outcome es i = none) :
    RA c (s.recordThrown c i x) (es ++ [.thrown i x d]) := by
  have hw : want (es ++ [Ev.thrown i x d]) (some i) = some (i, .err x) := want_new rfl hn
  have hix := recordThrown_index c hk s i x
  have e1 := h.err
  have e2 := h.result
  clear h
  cases hs : s.index with
  | none =>
    rw [hs] at hix hi e2
    replace hi := hi.symm
    have hix : (s.recordThrown c i x).index = some i := hix
    constructor
    · rw [blame_first hi]
      simp_all [St.recordThrown, Ev.blames, Ev.claims]
    · intro ha
      have e2 := e2 ha
      rw [hix, hw]; simp_all [St.recordThrown, okOf, want]
  | some j =>
    rw [hs] at hix hi e2
    replace hi := hi.symm
    have hix : (s.recordThrown c i x).index = some j := hix
    by_cases hj : j = i
    · subst hj
      have hw0 : want es (some j) = none := by simp [want, hn]
      rw [hw0] at e2
      constructor
      · rw [blame_more hi (by intro x; cases x)]
        simp_all [St.recordThrown, Ev.blames]
      · intro ha
        have e2 := e2 ha
        rw [hix, hw]; simp_all [St.recordThrown, okOf]
    · constructor
      · rw [blame_more hi (by intro x; cases x)]
        clear hi; have hij : ¬ i = j := fun x => hj x.symm; simp_all [St.recordThrown, Ev.blames]
      · intro ha
        rw [hix, want_other (e := .thrown i x d) rfl hj, ← e2 ha]; simp_all [St.recordThrown]

theorem RA.step {c : Cfg} (hc : c.Uniform) (hk : c.kind = .race) {s : St} (hi : Inv c s s.tags) {es : List Ev}
    (hh : Hist c s es) (h : RA c s es) {e : Ev} (hu : s.ub = false) (hcan : s.can c e = true) :
    RA c (s.step c e) (es ++ [e]) := by
  have hs := step_sim hi hu hcan
  have hw := hh.race hk
  have none_of : ∀ i, (s.child i).ended = false → outcome es i = none := by
    intro i hi; have := hh.ended i; rw [hi] at this; simpa using this.symm
  cases e <;> simp only at hs
  case ready i o d =>
    have hx : s.stack.head? = some (.asking i) := by simpa [St.can] using hcan
    have ht := tags_of_head hx
    have hA := (hi.asking i).2 (by rw [ht]; simp [Frame.tag])
    have hn := none_of i (by simp [hA, CS.ended])
    exact (RA.ready hc hk (s := { s with stack := s.stack.tail }) ⟨h.err, h.result⟩ hw hn).sim hs
  case thrown i x d =>
    have hn : outcome es i = none := by
      apply none_of
      simp only [St.can, Bool.or_eq_true, beq_iff_eq, Bool.and_eq_true] at hcan
      rcases hcan with hh | ⟨-, hh⟩
      · have ht := tags_of_head hh
        have := (hi.asking i).2 (by rw [ht]; simp [Frame.tag])
        simp [this, CS.ended]
      · simp [hh, CS.ended]
    exact (RA.thrown hk (s := { s with stack := s.stack.tail }) ⟨h.err, h.result⟩ hw hn).sim hs
  case fin i o =>
    simp only [St.can, Bool.and_eq_true, beq_iff_eq] at hcan
    have hn := none_of i (by simp [hcan.1, CS.ended])
    exact (h.fin hk hw hn).sim hs
  case txn i =>
    simp only [St.can, Bool.and_eq_true, beq_iff_eq] at hcan
    have hn := none_of i (by simp [hcan.1.2, CS.ended])
    refine RA.sim ?_ hs
    cases hx : s.index with
    | none =>
      simp only [↓reduceIte]
      have e1 := h.err
      have e2 := h.result
      rw [hx] at e2
      rw [hx] at hw
      have hw' : want (es ++ [Ev.txn i]) (some i) = none := by rw [want_quiet _ _ rfl]; simp [want, hn]
      constructor
      · show s.err = _
        rw [e1, blame_first hw.symm, blame_none hw.symm]; rfl
      · intro ha
        show s.result = (want _ (some i)).bind okOf
        rw [hw', e2 ha]; rfl
    | some j =>
      rw [if_neg (by simp [hx])]
      rw [hx] at hw
      refine ⟨?_, by rw [want_quiet _ _ rfl]; exact h.result⟩
      rw [blame_more hw.symm]
      · exact h.err
      · intro he
        cases he
        rcases winner_cases es i hw.symm with h1 | h1
        · exact txnd_iff.2 h1
        · rw [hn] at h1; cases h1
  all_goals
    refine RA.sim ?_ hs
    apply RA.quiet
    · exact ⟨h.err, h.result⟩
    · rfl

theorem RA.steps {c : Cfg} (hc : c.Ok) (hf : c.Uniform) (hk : c.kind = .race) : ∀ (es pre : List Ev) {s : St},
    Inv c s s.tags → Hist c s pre → RA c s pre → Legal c s es →
    (s.steps c es).ub = true ∨ RA c (s.steps c es) (pre ++ es)
  | [], pre, _, _, _, h, _ => by right; rw [List.append_nil]; exact h
  | e :: es, pre, s, hi, hh, h, hl => by
    by_cases hu : s.ub = true
    · exact Or.inl (steps_ub _ hu)
    · have hu : s.ub = false := by simpa using hu
      rcases hi.step hc e with h1 | h1
      · exact Or.inl (steps_ub es h1)
      · rcases hh.step hi hu hl.1 with h2 | h2
        · exact Or.inl (steps_ub es h2)
        · have e1 : pre ++ e :: es = (pre ++ [e]) ++ es := by simp
          rw [e1]
          exact RA.steps hc hf hk es (pre ++ [e]) h1 h2 (h.step hf hk hi hh hu hl.1) hl.2

theorem RA.run {c : Cfg} (hc : c.Ok) (hf : c.Uniform) (hk : c.kind = .race) {es : List Ev} (hl : Legal c {} es)
    (hu : (St.run c es).ub = false) : RA c (St.run c es) es := by
  rcases RA.steps hc hf hk es [] (Inv.init c) (Hist.init c) (RA.init c) hl with h | h
  · have h : (St.run c es).ub = true := h
    rw [hu] at h; cases h
  · exact h

/-- An awaitable ends once. -/
structure Once (es : List Ev) : Prop where
  out : ∀ e ∈ es, ∀ i o, e.ends = some (i, o) → outcome es i = some o
  uniq : ∀ e ∈ es, ∀ e' ∈ es, ∀ i o o', e.ends = some (i, o) → e'.ends = some (i, o') → e = e'

theorem Once.nil : Once [] := ⟨fun _ h => absurd h List.not_mem_nil, fun _ h => absurd h List.not_mem_nil⟩

theorem Once.snoc {es : List Ev} {e : Ev} (h : Once es) (hn : ∀ i o, e.ends = some (i, o) → outcome es i = none) :
    Once (es ++ [e]) := by
  constructor
  · intro e' he' i o hi
    rw [outcome_snoc]
    rcases List.mem_append.1 he' with h1 | h1
    · rw [h.out e' h1 i o hi]; rfl
    · rw [List.mem_singleton] at h1
      subst h1
      rw [hn i o hi, hi]; simp
  · intro a ha b hb i o o' hia hib
    rcases List.mem_append.1 ha with h1 | h1 <;> rcases List.mem_append.1 hb with h2 | h2
    · exact h.uniq a h1 b h2 i o o' hia hib
    · rw [List.mem_singleton] at h2
      subst h2
      have := h.out a h1 i o hia
      rw [hn i o' hib] at this; cases this
    · rw [List.mem_singleton] at h1
      subst h1
      have := h.out b h2 i o' hib
      rw [hn i o hia] at this; cases this
    · rw [List.mem_singleton] at h1 h2
      rw [h1, h2]

theorem ends_new {c : Cfg} {s : St} (hi : Inv c s s.tags) {es : List Ev} (hh : Hist c s es) {e : Ev}
    (hcan : s.can c e = true) : ∀ i o, e.ends = some (i, o) → outcome es i = none := by
  have none_of : ∀ i, (s.child i).ended = false → outcome es i = none := by
    intro i hi; have := hh.ended i; rw [hi] at this; simpa using this.symm
  intro i o he
  cases e <;> simp only [Ev.ends, reduceCtorEq, Option.some.injEq, Prod.mk.injEq] at he
  case ready j o' d =>
    obtain ⟨rfl, rfl⟩ := he
    have hx : s.stack.head? = some (.asking j) := by simpa [St.can] using hcan
    have ht := tags_of_head hx
    have hA := (hi.asking j).2 (by rw [ht]; simp [Frame.tag])
    exact none_of j (by simp [hA, CS.ended])
  case thrown j x d =>
    obtain ⟨rfl, rfl⟩ := he
    apply none_of
    simp only [St.can, Bool.or_eq_true, beq_iff_eq, Bool.and_eq_true] at hcan
    rcases hcan with hh | ⟨-, hh⟩
    · have ht := tags_of_head hh
      have := (hi.asking j).2 (by rw [ht]; simp [Frame.tag])
      simp [this, CS.ended]
    · simp [hh, CS.ended]
  case fin j o' =>
    obtain ⟨rfl, rfl⟩ := he
    simp only [St.can, Bool.and_eq_true, beq_iff_eq] at hcan
    exact none_of j (by simp [hcan.1, CS.ended])

theorem Once.steps {c : Cfg} (hc : c.Ok) : ∀ (es pre : List Ev) {s : St},
    Inv c s s.tags → Hist c s pre → Once pre → Legal c s es → (s.steps c es).ub = true ∨ Once (pre ++ es)
  | [], pre, _, _, _, h, _ => by right; rw [List.append_nil]; exact h
  | e :: es, pre, s, hi, hh, h, hl => by
    by_cases hu : s.ub = true
    · exact Or.inl (steps_ub _ hu)
    · have hu : s.ub = false := by simpa using hu
      rcases hi.step hc e with h1 | h1
      · exact Or.inl (steps_ub es h1)
      · rcases hh.step hi hu hl.1 with h2 | h2
        · exact Or.inl (steps_ub es h2)
        · have e1 : pre ++ e :: es = (pre ++ [e]) ++ es := by simp
          rw [e1]
          exact Once.steps hc es (pre ++ [e]) h1 h2 (h.snoc (ends_new hi hh hl.1)) hl.2

theorem Once.run {c : Cfg} (hc : c.Ok) {es : List Ev} (hl : Legal c {} es) (hu : (St.run c es).ub = false) : Once es := by
  rcases Once.steps hc es [] (Inv.init c) (Hist.init c) Once.nil hl with h | h
  · have h : (St.run c es).ub = true := h
    rw [hu] at h; cases h
  · exact h

theorem blame_mem {c : Cfg} {es : List Ev} {w e : Nat} (hw : winner es = some w) (h : blame c es = some e) :
    ∃ x ∈ es, x.blames c w (txnd es w) = some e := by
  simp only [blame, hw, Option.bind_some] at h
  obtain ⟨x, hx, hb⟩ := List.exists_of_findSome?_eq_some h
  exact ⟨x, List.mem_reverse.1 hx, hb⟩

theorem blame_some {c : Cfg} {es : List Ev} {w e : Nat} (hw : winner es = some w) {x : Ev} (hx : x ∈ es)
    (hb : x.blames c w (txnd es w) = some e) : ∃ e', blame c es = some e' := by
  cases h : blame c es with
  | some e' => exact ⟨e', rfl⟩
  | none =>
    simp only [blame, hw, Option.bind_some] at h
    rw [List.findSome?_eq_none_iff.1 h x (List.mem_reverse.2 hx)] at hb
    cases hb

/-- An error that is kept belongs to the winner, unless the race is ranged and without values. -/
theorem blames_ends {c : Cfg} {x : Ev} {w e : Nat} {t : Bool} (h : x.blames c w t = some e) :
    x.ends = some (w, .err e) ∨
      ∃ i d, x = .ready i (.err e) d ∧ c.ranged = true ∧ c.void i = true := by
  cases x with
  | ready i o d =>
    cases o with
    | ok v => cases h
    | err y =>
      simp only [Ev.blames] at h
      split at h
      · rename_i hc
        cases h
        rcases hc with rfl | hc
        · left; rfl
        · right; exact ⟨i, d, rfl, hc⟩
      · cases h
  | thrown i y d =>
    simp only [Ev.blames] at h
    split at h
    · rename_i hc; subst hc; cases h; left; rfl
    · cases h
  | fin i o =>
    cases o with
    | ok v => cases h
    | err y =>
      simp only [Ev.blames] at h
      split at h
      · rename_i hc; obtain ⟨rfl, -⟩ := hc; cases h; left; rfl
      · cases h
  | _ => cases h

end Cobalt.Comb
