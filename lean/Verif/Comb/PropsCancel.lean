import Verif.Comb.Ranged
/-! # C16, C17, C19, C21: which awaitables a combinator cancels and interrupts -/
namespace Cobalt.Comb

/-- C16: after a failure, once all awaitables have been started and `cancel_all` has
returned, every awaitable that is still outstanding has been sent a cancellation of
all types; exactly one, unless somebody cancels from outside. What is missing:
awaitables are started even after a failure (`C16_start_violated`). -/
theorem C16_cancel_partial {c : Cfg} (hc : c.Ok) (hk : c.kind = .join) {es : List Ev} (hl : Legal c {} es)
    (hu : (St.run c es).ub = false) (hf : firstErr es ≠ none) (hs : (St.run c es).phase ≠ .starting)
    (hq : (St.run c es).settled) :
    ∀ j, (St.run c es).child j = .waiting → (j, c.ct) ∈ (St.run c es).sent ∧
      ((∀ e ∈ es, ∀ ct, e ≠ .cancel ct) → ((St.run c es).sent.map Prod.fst).count j = 1) := by
  have ha := All.run hc hl hu
  intro j hj
  have herr : (St.run c es).err ≠ none := by rw [ha.hist.joinErr hk]; exact hf
  have hsig : (St.run c es).sig j = false := by
    cases hx : (St.run c es).sig j
    · rfl
    · obtain ⟨p, co, ct, n, h1, h2, -⟩ := ha.loops.join hk herr hs j hx
      simp only [St.acts, List.mem_map] at h1
      obtain ⟨f, hf, h3⟩ := h1
      have := hq f hf
      cases f <;> simp only [Frame.act, Act.emit.injEq, reduceCtorEq] at h3
      rw [h3.2.1] at this
      exact absurd this h2
  have hsent : (j, c.ct) ∈ (St.run c es).sent := by
    rcases ha.loops.reach j hj with h1 | h1 | h1
    · rw [hsig] at h1; simp at h1
    · exact h1.2
    · rw [hk] at h1; simp at h1
  refine ⟨hsent, fun hn => ?_⟩
  have hnc : (es.all fun e => !e.isCancel) = true := by
    rw [List.all_eq_true]
    intro e he
    cases e <;> simp [Ev.isCancel]
    exact hn _ he _ rfl
  have h1 := (ha.loops.once hnc j).1
  have h2 : 0 < ((St.run c es).sent.map Prod.fst).count j := by
    rw [List.count_pos_iff]
    exact List.mem_map.2 ⟨_, hsent, rfl⟩
  omega

/-- The second of three fails while the others are outstanding. -/
def exJ3 : List Ev := [.begin, .notReady 0, .ret false, .notReady 1, .ret false, .notReady 2, .ret false,
  .fin 1 (.err 3), .ret false, .ret false]

example : Legal (three .join) {} exJ3 ∧ (St.run (three .join) exJ3).ub = false ∧ firstErr exJ3 = some 3 ∧
    (St.run (three .join) exJ3).phase = .suspended ∧ (St.run (three .join) exJ3).stack = [] ∧
    (St.run (three .join) exJ3).child 0 = .waiting ∧ (St.run (three .join) exJ3).child 2 = .waiting ∧
    (St.run (three .join) exJ3).sent = [(2, 7), (0, 7)] := by decide

/-- C16 does not hold: after the first awaitable has failed the second is started. -/
theorem C16_start_violated : ∃ es, Legal (two .join) {} (es ++ [.notReady 1]) ∧
    (St.run (two .join) (es ++ [.notReady 1])).ub = false ∧ firstErr es = some 3 ∧
    (St.run (two .join) es).child 1 = .asking ∧ (St.run (two .join) (es ++ [.notReady 1])).child 1 = .waiting :=
  ⟨[.begin, .ready 0 (.err 3) false], by decide⟩

/-- A join or gather that has begun to wait, or is over, has started every awaitable, whatever failed
meanwhile. -/
theorem C16_started {c : Cfg} (hc : c.Ok) (hk : c.kind ≠ .race) {es : List Ev} (hl : Legal c {} es)
    (hu : (St.run c es).ub = false) (hb : (St.run c es).phase ≠ .before) (hs : (St.run c es).phase ≠ .starting) :
    ∀ j, j < c.n → (St.run c es).child j ≠ .idle := by
  intro j hj hi
  have h := (All.run hc hl hu).inv
  have := h.all hk hb j ((hc.mem j).2 hj) hi
  rw [h.todoEnd hk hs] at this
  cases this

/-- Exactly when a join starts no awaitable after a failure: when all had been started at the failure. -/
theorem C16_start_exact {c : Cfg} (hc : c.Ok) (hk : c.kind = .join) {pre post : List Ev}
    (hl : Legal c {} (pre ++ post)) (hu : (St.run c (pre ++ post)).ub = false) (_ : firstErr pre ≠ none)
    (hb : (St.run c (pre ++ post)).phase ≠ .before) (hs : (St.run c (pre ++ post)).phase ≠ .starting) :
    (∀ j, j < c.n → (St.run c pre).child j = .idle → (St.run c (pre ++ post)).child j = .idle) ↔
      ∀ j, j < c.n → (St.run c pre).child j ≠ .idle := by
  have h := C16_started hc (by rw [hk]; decide) hl hu hb hs
  exact ⟨fun h1 j hj hi => h j hj (h1 j hj hi), fun h1 j hj hi => absurd hi (h1 j hj)⟩

example : firstErr exJ3 = some 3 ∧ (∀ j, j < 3 → (St.run (three .join) (exJ3.take 8)).child j ≠ .idle) ∧
    (St.run (three .join) exJ3).phase = .suspended := by decide

/-- What an outside `interrupt_await` has done when it returns. -/
theorem intr_returns {c : Cfg} (hc : c.Ok) {es : List Ev} {e : Ev} (hl : Legal c {} es)
    (hcan : (St.run c es).can c e = true) (hu : ((St.run c es).step c e).ub = false) {since : Nat}
    (hr : IntrReturns c (St.run c es) e since) {j : Nat} (hj : ((St.run c es).step c e).child j = .waiting)
    (hh : ((St.run c es).step c e).hit c j = true) : j ∈ recent since ((St.run c es).step c e).intd := by
  have hu0 : (St.run c es).ub = false := by
    cases hx : (St.run c es).ub
    · rfl
    · have : ((St.run c es).step c e).ub = true := by unfold St.step; rw [if_pos (by simp [hx])]; exact hx
      rw [hu] at this; simp at this
  have ha := All.run hc hl hu0
  revert hu hr hj hh
  generalize St.run c es = s at *
  intro hu hr hj hh
  have key : ∀ (s₀ : St) (k : Nat) (d : Bool), Inv2 c (good c {} es) (es.all fun e => !e.isCancel) s₀
      (.intr k .ext since :: s₀.acts) → (s.step c e) = s₀.contIntr c k .ext since d → (s.step c e).stack = s₀.stack →
      j ∈ recent since (s.step c e).intd := by
    intro s₀ k d h1 h2 h3
    obtain ⟨-, h4⟩ := h1.scanIntr
    have h5 : (s₀.scanIntr c k .ext since).2 = false := by
      cases hx : (s₀.scanIntr c k .ext since).2
      · rfl
      · exfalso
        rw [h2] at h3
        simp only [St.contIntr, hx, if_true] at h3
        have := (Shape.scanIntr c s₀ k .ext since).2.2
        rw [hx, if_pos rfl] at this
        have h6 := congrArg (List.map Frame.tag) h3
        have h6 : (s₀.scanIntr c k .ext since).1.tags = s₀.tags := h6
        rw [this] at h6
        have := congrArg List.length h6
        simp at this
    obtain ⟨h6, -, -, h7⟩ := h4 h5
    have h8 : s.step c e = s₀ := by
      rw [h2]; simp only [St.contIntr, h5, Bool.false_eq_true, if_false, if_true, h6]
    rw [h8] at hj hh ⊢
    exact h7 j hj hh
  rcases hr with ⟨rfl, rfl, h3⟩ | ⟨k, d, rest, rfl, h2, h3⟩
  · refine key s 0 false ?_ ?_ h3
    · refine ha.loops.push ⟨Nat.le_refl _, fun j hj => absurd hj (Nat.not_lt_zero _)⟩ (by simp) ?_ (by simp)
      intro p co n he hne
      simp only [Act.intr.injEq] at he; exact absurd he.2.1.symm hne
    · unfold St.step; rw [if_neg (by simp [hu0, hcan])]
  · have hl := ha.loops
    have hacts : s.acts = .intr (k + 1) .ext since :: rest.map Frame.act := by simp [St.acts, h2, Frame.act]
    rw [hacts] at hl
    refine key { s with stack := rest } (k + 1) d (hl.congr rfl rfl rfl rfl rfl rfl rfl rfl) ?_ h3
    unfold St.step at hu ⊢
    rw [if_neg (by simp [hu0, hcan])] at hu ⊢
    simp only [h2] at hu ⊢
    split
    · rename_i h0; rw [if_pos h0] at hu; simp at hu
    · rfl

/-- C17 and its like for `gather` and `race`: when `interrupt_await` of a combinator
returns, every interruptible awaitable that is still outstanding has been interrupted
by it; in a `join` that had a failure it may have been cancelled before instead. Not
covered: ranged joins (`C17_ranged_violated`), and awaitables that have no
`interrupt_await`, which are left alone (`C17_uninterruptible_violated`). -/
theorem C17_interrupt_partial {c : Cfg} (hc : c.Ok) (hkr : c.kind = .join → c.ranged = false) {es : List Ev} {e : Ev}
    (hl : Legal c {} es) (hcan : (St.run c es).can c e = true) (hu : ((St.run c es).step c e).ub = false) {since : Nat}
    (hr : IntrReturns c (St.run c es) e since) :
    ∀ j, ((St.run c es).step c e).child j = .waiting → c.intr j = true →
      j ∈ recent since ((St.run c es).step c e).intd ∨
      (c.kind = .join ∧ (j, c.ct) ∈ ((St.run c es).step c e).sent) := by
  intro j hj hin
  have hl' : Legal c {} (es ++ [e]) := by
    have : ∀ (es : List Ev) (s : St), Legal c s es → (s.steps c es).can c e = true → Legal c s (es ++ [e]) := by
      intro es
      induction es with
      | nil => intro s _ h; exact ⟨h, trivial⟩
      | cons a es ih => intro s h1 h2; exact ⟨h1.1, ih _ h1.2 h2⟩
    exact this es {} hl hcan
  have hrun : St.run c (es ++ [e]) = (St.run c es).step c e := by
    simp [St.run, St.steps]
  have ha := All.run hc hl' (by rw [hrun]; exact hu)
  rw [hrun] at ha
  cases hk : c.kind with
  | gather => exact Or.inl (intr_returns hc hl hcan hu hr hj (by simp [St.hit, hk, hin]))
  | race => exact Or.inl (intr_returns hc hl hcan hu hr hj (by simp [St.hit, hk, hin, ha.loops.working j hj]))
  | join =>
    rcases ha.loops.reach j hj with h1 | h1 | h1
    · exact Or.inl (intr_returns hc hl hcan hu hr hj (by simp [St.hit, hk, hin, h1, hkr hk]))
    · exact Or.inr ⟨rfl, h1.2⟩
    · rw [hk] at h1; simp at h1

example : Legal (two .join) {} [.begin, .notReady 0, .ret false, .notReady 1, .ret false, .interrupt, .ret false] ∧
    IntrReturns (two .join)
      (St.run (two .join) [.begin, .notReady 0, .ret false, .notReady 1, .ret false, .interrupt, .ret false]) (.ret false) 0 ∧
    (St.run (two .join) [.begin, .notReady 0, .ret false, .notReady 1, .ret false, .interrupt, .ret false,
      .ret false]).intd = [1, 0] :=
  ⟨by decide, Or.inr ⟨1, false, [], rfl, by decide, by decide⟩, by decide⟩

def rangedJoin : Cfg := { kind := .join, n := 2, order := [0, 1], ranged := true }

theorem rangedJoin_ok : rangedJoin.Ok := by
  refine ⟨by simp [rangedJoin], fun i => ?_, fun _ => rfl⟩
  simp only [rangedJoin, List.mem_cons, List.not_mem_nil, or_false]
  omega

/-- C17 does not hold for ranged joins: the loop tests `cancel[0]` for every
awaitable (join.hpp:380-393). The first was ready, so the second, although
interruptible and outstanding, is not interrupted. -/
theorem C17_ranged_violated : ∃ es, Legal rangedJoin {} es ∧ (St.run rangedJoin es).ub = false ∧
    IntrReturns rangedJoin (St.run rangedJoin es) .interrupt 0 ∧
    (St.run rangedJoin (es ++ [.interrupt])).child 1 = .waiting ∧ rangedJoin.intr 1 = true ∧
    (St.run rangedJoin (es ++ [.interrupt])).intd = [] ∧ (St.run rangedJoin (es ++ [.interrupt])).sent = [] :=
  ⟨[.begin, .ready 0 (.ok 1) false, .notReady 1, .ret false], by decide, by decide,
    Or.inl ⟨rfl, by decide, by decide⟩, by decide, by decide, by decide, by decide⟩

/-- What a ranged join does instead, exactly: if the first awaitable was not ready and nothing
has failed, every interruptible awaitable that is still outstanding has been interrupted when
`interrupt_await` returns; otherwise a call of `interrupt_await` does nothing at all. -/
theorem C17_ranged_exact {c : Cfg} (hc : c.Ok) (hk : c.kind = .join) (hr : c.ranged = true) {es : List Ev}
    (hl : Legal c {} es) (hu : (St.run c es).ub = false) :
    (∀ e since, (St.run c es).can c e = true → ((St.run c es).step c e).ub = false →
      IntrReturns c (St.run c es) e since → .notReady 0 ∈ es → firstErr (es ++ [e]) = none →
      ∀ j, ((St.run c es).step c e).child j = .waiting → c.intr j = true →
        j ∈ recent since ((St.run c es).step c e).intd) ∧
    (¬(.notReady 0 ∈ es ∧ firstErr es = none) → (St.run c es).step c .interrupt = St.run c es) := by
  constructor
  · intro e since hcan hu' hret hn hf j hj hin
    have hl' : Legal c {} (es ++ [e]) := by
      have : ∀ (es : List Ev) (s : St), Legal c s es → (s.steps c es).can c e = true → Legal c s (es ++ [e]) := by
        intro es
        induction es with
        | nil => intro s _ h; exact ⟨h, trivial⟩
        | cons a es ih => intro s h1 h2; exact ⟨h1.1, ih _ h1.2 h2⟩
      exact this es {} hl hcan
    have hrun : St.run c (es ++ [e]) = (St.run c es).step c e := by simp [St.run, St.steps]
    have hs := (join_sig0 hc hk hl' (by rw [hrun]; exact hu')).2 ⟨by simp [hn], hf⟩
    rw [hrun] at hs
    exact intr_returns hc hl hcan hu' hret hj (by simp [St.hit, hk, hin, hr, hs])
  · intro h
    have hs : (St.run c es).sig 0 = false := by
      cases hx : (St.run c es).sig 0 with
      | false => rfl
      | true => exact absurd ((join_sig0 hc hk hl hu).1 hx) h
    unfold St.step
    split
    · rfl
    · have hn : St.next c.n 0 (St.hit c (St.run c es)) = none := by
        unfold St.next
        rw [List.find?_eq_none]
        intro j _
        simp [St.hit, hk, hr, hs]
      simp [St.contIntr, St.scanIntr, hn]

/-- The second of two is interrupted because the first is waited for. -/
example : Legal rangedJoin {} [.begin, .notReady 0, .ret false, .notReady 1, .ret false, .interrupt, .ret false] ∧
    IntrReturns rangedJoin
      (St.run rangedJoin [.begin, .notReady 0, .ret false, .notReady 1, .ret false, .interrupt, .ret false]) (.ret false) 0 ∧
    (St.run rangedJoin [.begin, .notReady 0, .ret false, .notReady 1, .ret false, .interrupt, .ret false,
      .ret false]).intd = [1, 0] :=
  ⟨by decide, Or.inr ⟨1, false, [], rfl, by decide, by decide⟩, by decide⟩

/-- An awaitable that is not interruptible is neither interrupted nor cancelled. -/
theorem C17_uninterruptible_violated : ∃ es, Legal { two .join with intr := fun _ => false } {} es ∧
    (St.run { two .join with intr := fun _ => false } (es ++ [.interrupt])).child 1 = .waiting ∧
    (St.run { two .join with intr := fun _ => false } (es ++ [.interrupt])).stack = [] ∧
    (St.run { two .join with intr := fun _ => false } (es ++ [.interrupt])).intd = [] ∧
    (St.run { two .join with intr := fun _ => false } (es ++ [.interrupt])).sent = [] :=
  ⟨[.begin, .ready 0 (.ok 1) false, .notReady 1, .ret false], by decide⟩

/-- C19: once a race has a winner and `cancel_all` has returned, every other awaitable
that is outstanding has been sent the cancellation (exactly one, unless somebody
cancels from outside), and been interrupted if it can be. Missing: awaitables started
after the race was decided, and winners that throw while being started
(`C19_late_violated`, `C19_thrown_violated`). -/
theorem C19_losers_partial {c : Cfg} (hc : c.Ok) (hk : c.kind = .race) {es : List Ev} (hl : Legal c {} es)
    (hu : (St.run c es).ub = false) (hlf : LateFree es) (hq : (St.run c es).settled) {w : Nat} (hw : winner es = some w) :
    ∀ j, (St.run c es).child j = .waiting →
      (c.intr j = true → j ∈ (St.run c es).intd) ∧
      (j ≠ w → (j, c.ct) ∈ (St.run c es).sent ∧
        ((∀ e ∈ es, ∀ ct, e ≠ .cancel ct) → ((St.run c es).sent.map Prod.fst).count j = 1)) := by
  have ha := All.run hc hl hu
  have hg : good c {} es = true := good_of hc hk es [] (All.init c) hl hu hlf
  rw [hg] at ha
  have hix : (St.run c es).index ≠ none := by rw [ha.hist.race hk, hw]; simp
  intro j hj
  constructor
  · intro hin
    rcases ha.loops.raceI hk rfl hix j hj hin with h1 | ⟨p, co, n, h1, h2, -⟩
    · exact h1
    · exfalso
      simp only [St.acts, List.mem_map] at h1
      obtain ⟨f, hf, h3⟩ := h1
      have := hq f hf
      cases f <;> simp only [Frame.act, Act.intr.injEq, reduceCtorEq] at h3
      rw [h3.2.1] at this
      exact absurd this h2
  · intro hjw
    have hsig : (St.run c es).sig j = false := by
      cases hx : (St.run c es).sig j
      · rfl
      · rcases ha.loops.race hk rfl hix j hx with ⟨p, co, n, h1, h2⟩ | ⟨p, co, ct, n, h1, h2, -⟩
        · simp only [St.acts, List.mem_map] at h1
          obtain ⟨f, hf, h3⟩ := h1
          have := hq f hf
          cases f <;> simp only [Frame.act, Act.intr.injEq, reduceCtorEq] at h3
          rw [h3.2.1] at this
          exact absurd this h2
        · simp only [St.acts, List.mem_map] at h1
          obtain ⟨f, hf, h3⟩ := h1
          have := hq f hf
          cases f <;> simp only [Frame.act, Act.emit.injEq, reduceCtorEq] at h3
          rw [h3.2.1] at this
          exact absurd this h2
    have hsent : (j, c.ct) ∈ (St.run c es).sent := by
      rcases ha.loops.reach j hj with h1 | h1 | h1
      · rw [hsig] at h1; simp at h1
      · exact h1.2
      · rw [ha.hist.race hk, hw] at h1
        simp only [Option.some.injEq] at h1
        exact absurd h1.2.symm hjw
    refine ⟨hsent, fun hn => ?_⟩
    have hnc : (es.all fun e => !e.isCancel) = true := by
      rw [List.all_eq_true]
      intro e he
      cases e <;> simp [Ev.isCancel]
      exact hn _ he _ rfl
    have h1 := (ha.loops.once hnc j).1
    have h2 : 0 < ((St.run c es).sent.map Prod.fst).count j := by
      rw [List.count_pos_iff]
      exact List.mem_map.2 ⟨_, hsent, rfl⟩
    omega

/-- The second of three wins while all are outstanding, in the order 2, 0, 1. -/
def shuffled : Cfg := { kind := .race, n := 3, order := [2, 0, 1] }

theorem shuffled_ok : shuffled.Ok := by
  refine ⟨by simp [shuffled], fun i => ?_, fun h => absurd rfl h⟩
  simp only [shuffled, List.mem_cons, List.not_mem_nil, or_false]
  omega

def exR3 : List Ev := [.begin, .notReady 2, .ret false, .notReady 0, .ret false, .notReady 1, .ret false,
  .fin 1 (.ok 3), .ret false, .ret false, .ret false, .ret false, .ret false]

example : Legal shuffled {} exR3 ∧ (St.run shuffled exR3).ub = false ∧ winner exR3 = some 1 ∧
    (St.run shuffled exR3).phase = .suspended ∧ (St.run shuffled exR3).stack = [] ∧
    (St.run shuffled exR3).child 0 = .waiting ∧ (St.run shuffled exR3).child 2 = .waiting ∧
    (St.run shuffled exR3).sent = [(2, 7), (0, 7)] ∧ (St.run shuffled exR3).intd = [2, 1, 0] := by decide

/-- C19 does not hold: the second awaitable is ready and wins while the first is
outstanding; its frame destroys itself, `done()` is asked about the destroyed frame
(race.hpp:315-323) and, if that says no, the third is started and neither interrupted
nor cancelled. -/
theorem C19_late_violated : ∃ es, Legal (three .race) {} es ∧ (St.run (three .race) es).ub = false ∧
    winner es = some 1 ∧ (St.run (three .race) es).phase = .suspended ∧ (St.run (three .race) es).stack = [] ∧
    (St.run (three .race) es).child 2 = .waiting ∧ 2 ∉ (St.run (three .race) es).intd ∧
    (St.run (three .race) es).sent = [(0, 7)] :=
  ⟨[.begin, .notReady 0, .ret false, .ready 1 (.ok 3) false, .ret false, .ret false, .ret false,
    .notReady 2, .ret false], by decide⟩

/-- Nor if the winner throws from `await_ready` or `await_suspend`: there is no
`cancel_all` then (race.hpp:277-284), and the race waits for the first awaitable,
which nobody told. -/
theorem C19_thrown_violated : ∃ es, Legal (two .race) {} es ∧ (St.run (two .race) es).ub = false ∧
    winner es = some 1 ∧ outcome es 1 = some (.err 5) ∧ (St.run (two .race) es).phase = .suspended ∧
    (St.run (two .race) es).stack = [] ∧ (St.run (two .race) es).child 0 = .waiting ∧
    (St.run (two .race) es).intd = [] ∧ (St.run (two .race) es).sent = [] :=
  ⟨[.begin, .notReady 0, .ret false, .thrown 1 5 true], by decide⟩

/-- C21: when the handler for an outside cancellation returns, every awaitable that is
still outstanding has been sent this cancellation, unless the combinator had already
cancelled it itself, or, in a race, it has begun a transaction. For `gather` there
are no exceptions. -/
theorem C21_forward_partial {c : Cfg} (hc : c.Ok) {es : List Ev} {e : Ev} (hl : Legal c {} es)
    (hcan : (St.run c es).can c e = true) (hu : ((St.run c es).step c e).ub = false) {ct since : Nat}
    (hr : EmitReturns c (St.run c es) e ct since) :
    ∀ j, ((St.run c es).step c e).child j = .waiting →
      (j, ct) ∈ recent since ((St.run c es).step c e).sent ∨
      (c.kind ≠ .gather ∧ (j, c.ct) ∈ ((St.run c es).step c e).sent) ∨
      (c.kind = .race ∧ winner es = some j) := by
  have hu0 : (St.run c es).ub = false := by
    cases hx : (St.run c es).ub
    · rfl
    · have : ((St.run c es).step c e).ub = true := by unfold St.step; rw [if_pos (by simp [hx])]; exact hx
      rw [hu] at this; simp at this
  have ha := All.run hc hl hu0
  have hwin : c.kind = .race → (St.run c es).index = winner es := ha.hist.race
  revert hu hr
  generalize St.run c es = s at *
  intro hu hr j hj
  have key : ∀ (s₀ : St) (k : Nat) (d : Bool), Inv2 c (good c {} es) false s₀
      (.emit k .ext ct since :: s₀.acts) → (s.step c e) = s₀.contEmit c k .ext ct since d →
      (s.step c e).stack = s₀.stack → s₀.index = s.index →
      (j, ct) ∈ recent since (s.step c e).sent ∨ (c.kind ≠ .gather ∧ (j, c.ct) ∈ (s.step c e).sent) ∨
        (c.kind = .race ∧ winner es = some j) := by
    intro s₀ k d h1 h2 h3 hix
    obtain ⟨h4, h5⟩ := h1.scanEmit
    have h6 : (s₀.scanEmit c k .ext ct since).2 = false := by
      cases hx : (s₀.scanEmit c k .ext ct since).2
      · rfl
      · exfalso
        rw [h2] at h3
        simp only [St.contEmit, hx, if_true] at h3
        have := (Shape.scanEmit c s₀ k .ext ct since).2.2
        rw [hx, if_pos rfl] at this
        have h6 := congrArg (List.map Frame.tag) h3
        have h6 : (s₀.scanEmit c k .ext ct since).1.tags = s₀.tags := h6
        rw [this] at h6
        have := congrArg List.length h6
        simp at this
    have h7 := (h5 h6).2 rfl
    have h8 : s.step c e = (s₀.scanEmit c k .ext ct since).1 := by
      rw [h2]; simp only [St.contEmit, h6, Bool.false_eq_true, if_false, St.done]
    have h9 := (Sim.scanEmit c s₀ k .ext ct since).index
    rw [h8] at hj ⊢
    rcases h4.reach j hj with h10 | h10 | h10
    · exact Or.inl (h7 j hj h10)
    · exact Or.inr (Or.inl h10)
    · right; right
      rw [h9, hix, hwin h10.1] at h10
      exact h10
  rcases hr with ⟨rfl, rfl, h3⟩ | ⟨k, d, rest, rfl, h2, h3⟩
  · refine key s 0 false ?_ ?_ h3 rfl
    · refine (ha.loops.weaken id (nc' := false) (by simp)).push
        ⟨Nat.le_refl _, fun _ j hj => absurd hj (Nat.not_lt_zero _), fun h => absurd rfl h⟩ ?_ (by simp) (by simp)
      intro p co ct' n he hne
      simp only [Act.emit.injEq] at he; exact absurd he.2.1.symm hne
    · unfold St.step; rw [if_neg (by simp [hu0, hcan])]
  · have hl := ha.loops.weaken id (nc' := false) (by simp)
    have hacts : s.acts = .emit (k + 1) .ext ct since :: rest.map Frame.act := by simp [St.acts, h2, Frame.act]
    rw [hacts] at hl
    refine key { s with stack := rest } (k + 1) d (hl.congr rfl rfl rfl rfl rfl rfl rfl rfl) ?_ h3 rfl
    unfold St.step at hu ⊢
    rw [if_neg (by simp [hu0, hcan])] at hu ⊢
    simp only [h2] at hu ⊢
    split
    · rename_i h0; rw [if_pos h0] at hu; simp at hu
    · rfl

/-- For `gather` every outstanding awaitable is sent the cancellation. -/
theorem C21_gather {c : Cfg} (hc : c.Ok) (hk : c.kind = .gather) {es : List Ev} {e : Ev} (hl : Legal c {} es)
    (hcan : (St.run c es).can c e = true) (hu : ((St.run c es).step c e).ub = false) {ct since : Nat}
    (hr : EmitReturns c (St.run c es) e ct since) :
    ∀ j, ((St.run c es).step c e).child j = .waiting → (j, ct) ∈ recent since ((St.run c es).step c e).sent := by
  intro j hj
  rcases C21_forward_partial hc hl hcan hu hr j hj with h | h | h
  · exact h
  · exact absurd hk h.1
  · rw [hk] at h; simp at h

/-- C21: the handler sends nothing else: only the type received, only to awaitables
that are outstanding. -/
theorem C21_only {c : Cfg} {s : St} (hu : s.ub = false) {e : Ev} {ct : Nat}
    (he : e = .cancel ct ∨ ∃ d k since rest, e = .ret d ∧ s.stack = .emit k .ext ct since :: rest)
    (hcan : s.can c e = true) :
    (s.step c e).sent = s.sent ∨ ∃ j, (s.step c e).sent = (j, ct) :: s.sent ∧ s.child j = .waiting := by
  have key : ∀ (s₀ : St) (k since : Nat) (d : Bool), s₀.sent = s.sent → s₀.child = s.child →
      (s₀.contEmit c k .ext ct since d).sent = s.sent ∨
      ∃ j, (s₀.contEmit c k .ext ct since d).sent = (j, ct) :: s.sent ∧ s.child j = .waiting := by
    intro s₀ k since d h1 h2
    unfold St.contEmit St.scanEmit
    cases hx : St.next c.n k (fun j => s₀.sig j && s₀.child j == .waiting) with
    | none => left; simpa [St.done] using h1
    | some j =>
      right
      have := (next_some hx).2.2.1
      simp only [Bool.and_eq_true, beq_iff_eq] at this
      refine ⟨j, ?_, ?_⟩
      · simp only [if_true]; rw [h1]
      · rw [← h2]; exact this.2
  unfold St.step
  rw [if_neg (by simp [hu, hcan])]
  rcases he with rfl | ⟨d, k, since, rest, rfl, h2⟩
  · exact key s 0 _ _ rfl rfl
  · simp only [h2]
    split
    · exact Or.inl rfl
    · exact key { s with stack := rest } (k + 1) since d rfl rfl

/-- Three, the second finished; the cancellation of type 4 reaches the first, which
completes inside the call, and the third. -/
example : Legal (three .gather) {} [.begin, .notReady 0, .ret false, .ready 1 (.ok 1) false, .notReady 2, .ret false,
      .cancel 4, .fin 0 (.err 1), .ret false] ∧
    EmitReturns (three .gather) (St.run (three .gather) [.begin, .notReady 0, .ret false, .ready 1 (.ok 1) false,
      .notReady 2, .ret false, .cancel 4, .fin 0 (.err 1), .ret false]) (.ret false) 4 0 ∧
    (St.run (three .gather) [.begin, .notReady 0, .ret false, .ready 1 (.ok 1) false, .notReady 2, .ret false,
      .cancel 4, .fin 0 (.err 1), .ret false, .ret false]).sent = [(2, 4), (0, 4)] :=
  ⟨by decide, Or.inr ⟨2, false, [], rfl, by decide, by decide⟩, by decide⟩

/-- C21 does not hold as stated. An awaitable of a race that has begun a transaction
cannot be cancelled any more (race.hpp:199). -/
theorem C21_transaction_violated : ∃ es, Legal (two .race) {} es ∧
    EmitReturns (two .race) (St.run (two .race) es) (.cancel 4) 4 1 ∧
    (St.run (two .race) (es ++ [.cancel 4])).ub = false ∧ (St.run (two .race) (es ++ [.cancel 4])).child 1 = .waiting ∧
    (St.run (two .race) (es ++ [.cancel 4])).sent = [(0, 7)] :=
  ⟨[.begin, .notReady 0, .ret false, .notReady 1, .ret false, .txn 1, .ret false, .ret false, .ret false,
    .fin 0 (.err 1), .ret false], by decide, Or.inl ⟨rfl, by decide, by decide⟩, by decide, by decide, by decide⟩

/-- Nor can the awaitables of a join after the first failure, or of a race after the
first completion. -/
theorem C21_second_violated : ∃ es, Legal (two .join) {} es ∧
    EmitReturns (two .join) (St.run (two .join) es) (.cancel 4) 4 1 ∧
    (St.run (two .join) (es ++ [.cancel 4])).ub = false ∧ (St.run (two .join) (es ++ [.cancel 4])).child 0 = .waiting ∧
    (St.run (two .join) (es ++ [.cancel 4])).sent = [(0, 7)] :=
  ⟨[.begin, .notReady 0, .ret false, .notReady 1, .ret false, .fin 1 (.err 3), .ret false],
    by decide, Or.inl ⟨rfl, by decide, by decide⟩, by decide, by decide, by decide⟩

end Cobalt.Comb
