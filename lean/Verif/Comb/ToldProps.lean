import Verif.Comb.Mute
import Verif.Comb.PropsCancel
/-! C19 and C21 for a race, exactly: who is told that the race is decided, and who can still be
cancelled from outside. -/
namespace Cobalt.Comb

theorem not_busy {s : St} (hq : s.settled) {j : Nat} : (¬ ∃ a ∈ s.acts, a.ahead j) ∧ ¬ ∃ a ∈ s.acts, a.aheadI j := by
  have key : ∀ a ∈ s.acts, ¬ a.ahead j ∧ ¬ a.aheadI j := by
    intro a ha
    simp only [St.acts, List.mem_map] at ha
    obtain ⟨f, hf, rfl⟩ := ha
    have := hq f hf
    cases f <;> simp_all [Frame.act, Act.ahead, Act.aheadI]
  exact ⟨fun ⟨a, h1, h2⟩ => (key a h1).1 h2, fun ⟨a, h1, h2⟩ => (key a h1).2 h2⟩

/-- C19, exactly: whenever a race is not in the middle of it, it has sent its cancellation to
exactly those outstanding losers that were suspended before an awaitable completed or the first
transaction began, and interrupted all of them that can be. Those started later, and those that
wait while the winner was one that threw while being started, it has not told: they are told when
the next one completes. -/
theorem C19_exact {c : Cfg} (hc : c.Ok) (hk : c.kind = .race) {es : List Ev} (hl : Legal c {} es)
    (hu : (St.run c es).ub = false) (hn : ∀ e ∈ es, ∀ ct, e ≠ .cancel ct) (hq : (St.run c es).settled)
    {j : Nat} (hj : (St.run c es).child j = .waiting) (hw : winner es ≠ some j) :
    (j ∈ (St.run c es).sent.map Prod.fst ↔ Reached es j) ∧ ((j, c.ct) ∈ (St.run c es).sent ↔ Reached es j) ∧
    (Reached es j → c.intr j = true → j ∈ (St.run c es).intd) := by
  have ha := All.run hc hl hu
  have hr := Rch.run hc hk hl hu
  have hnc : (es.all fun e => !e.isCancel) = true := by
    rw [List.all_eq_true]
    intro e he
    cases e <;> simp [Ev.isCancel]
    exact hn _ he _ rfl
  have hsig : Reached es j → (St.run c es).sig j = false := by
    intro h
    cases hx : (St.run c es).sig j
    · rfl
    · exact absurd (hr.sig j h hj hx) (not_busy hq).1
  have h1 : Reached es j → (j, c.ct) ∈ (St.run c es).sent := by
    intro h
    rcases ha.loops.reach j hj with h1 | h1 | h1
    · rw [hsig h] at h1; simp at h1
    · exact h1.2
    · rw [ha.hist.race hk] at h1; exact absurd h1.2 hw
  have h2 : j ∈ (St.run c es).sent.map Prod.fst → Reached es j := by
    intro h
    apply Classical.byContradiction
    intro h3
    have h4 := (ha.loops.once hnc j).2 (Or.inl (hr.new j h3 hj))
    have h5 := List.count_pos_iff.2 h
    omega
  refine ⟨⟨h2, fun h => List.mem_map.2 ⟨_, h1 h, rfl⟩⟩, ⟨fun h => h2 (List.mem_map.2 ⟨_, h, rfl⟩), h1⟩, ?_⟩
  intro h hi
  rcases hr.intd j h hj hi with h1 | h1
  · exact h1
  · exact absurd h1 (not_busy hq).2

/-- Three; the first is outstanding when the second is ready, the third is started later: the first
is told, the third is not. When the first completes, the third is told. -/
def lateRun : List Ev := [.begin, .notReady 0, .ret false, .ready 1 (.ok 3) false, .ret false, .ret false, .ret false,
  .notReady 2, .ret false]

example : (St.run (three .race) lateRun).child 0 = .waiting ∧ (St.run (three .race) lateRun).child 2 = .waiting ∧
    (St.run (three .race) lateRun).stack = [] ∧ winner lateRun = some 1 ∧ Reached lateRun 0 ∧ ¬ Reached lateRun 2 := by
  refine ⟨by decide, by decide, by decide, by decide,
    ⟨[.begin, .notReady 0, .ret false], .ready 1 (.ok 3) false, [.ret false, .ret false, .ret false,
      .notReady 2, .ret false], rfl, by decide, rfl⟩, ?_⟩
  intro h
  have := (C19_exact (c := three .race) (three_ok _) rfl (es := lateRun) (by decide) (by decide)
    (by intro e he ct h; subst h; simp [lateRun] at he)
    (by intro f hf; rw [show (St.run (three .race) lateRun).stack = [] by decide] at hf; simp at hf)
    (j := 2) (by decide) (by decide)).1.2 h
  revert this
  decide

example : (St.run (three .race) (lateRun ++ [.fin 0 (.err 1), .ret false, .ret false])).sent = [(2, 7), (0, 7)] := by decide

/-- When the handler for a cancellation from outside returns, everybody whose pointer is set has been
sent it. -/
theorem emit_returns {c : Cfg} (hc : c.Ok) {es : List Ev} {e : Ev} (hl : Legal c {} es)
    (hcan : (St.run c es).can c e = true) (hu : ((St.run c es).step c e).ub = false) {ct since : Nat}
    (hr : EmitReturns c (St.run c es) e ct since) {j : Nat}
    (hj : ((St.run c es).step c e).child j = .waiting) (hs : ((St.run c es).step c e).sig j = true) :
    (j, ct) ∈ recent since ((St.run c es).step c e).sent := by
  have hu0 : (St.run c es).ub = false := by
    cases hx : (St.run c es).ub
    · rfl
    · have : ((St.run c es).step c e).ub = true := by unfold St.step; rw [if_pos (by simp [hx])]; exact hx
      rw [hu] at this; simp at this
  have ha := All.run hc hl hu0
  revert hu hr
  generalize St.run c es = s at *
  intro hu hr
  have key : ∀ (s₀ : St) (k : Nat) (d : Bool), Inv2 c (good c {} es) false s₀
      (.emit k .ext ct since :: s₀.acts) → (s.step c e) = s₀.contEmit c k .ext ct since d →
      (s.step c e).stack = s₀.stack → (j, ct) ∈ recent since (s.step c e).sent := by
    intro s₀ k d h1 h2 h3
    obtain ⟨h4, h5⟩ := h1.scanEmit
    have h6 : (s₀.scanEmit c k .ext ct since).2 = false := by
      cases hx : (s₀.scanEmit c k .ext ct since).2
      · rfl
      · exfalso
        rw [h2] at h3
        simp only [St.contEmit, hx, if_true] at h3
        have := (Shape.scanEmit c s₀ k .ext ct since).2.2
        rw [hx, if_pos rfl] at this
        have h6 := congrArg (List.map Frame.tag) h3
        have h6 : (s₀.scanEmit c k .ext ct since).1.tags = s₀.tags := h6
        rw [this] at h6
        have := congrArg List.length h6
        simp at this
    have h8 : s.step c e = (s₀.scanEmit c k .ext ct since).1 := by
      rw [h2]; simp only [St.contEmit, h6, Bool.false_eq_true, if_false, St.done]
    rw [h8] at hj hs ⊢
    exact (h5 h6).2 rfl j hj hs
  rcases hr with ⟨rfl, rfl, h3⟩ | ⟨k, d, rest, rfl, h2, h3⟩
  · refine key s 0 false ?_ ?_ h3
    · refine (ha.loops.weaken id (nc' := false) (by simp)).push
        ⟨Nat.le_refl _, fun _ j hj => absurd hj (Nat.not_lt_zero _), fun h => absurd rfl h⟩ ?_ (by simp) (by simp)
      intro p co ct' n he hne
      simp only [Act.emit.injEq] at he; exact absurd he.2.1.symm hne
    · unfold St.step; rw [if_neg (by simp [hu0, hcan])]
  · have hl := ha.loops.weaken id (nc' := false) (by simp)
    have hacts : s.acts = .emit (k + 1) .ext ct since :: rest.map Frame.act := by simp [St.acts, h2, Frame.act]
    rw [hacts] at hl
    refine key { s with stack := rest } (k + 1) d (hl.congr rfl rfl rfl rfl rfl rfl rfl rfl) ?_ h3
    unfold St.step at hu ⊢
    rw [if_neg (by simp [hu0, hcan])] at hu ⊢
    simp only [h2] at hu ⊢
    split
    · rename_i h0; rw [if_pos h0] at hu; simp at hu
    · rfl

/-- C21 for a race, exactly: a cancellation from outside is sent to every outstanding awaitable that
`cancel_all` has not reached when the handler returns, and to none that it had reached before. -/
theorem C21_race_exact {c : Cfg} (hc : c.Ok) (hk : c.kind = .race) {pre mid : List Ev} {ct : Nat} {e : Ev}
    (hl : Legal c {} (pre ++ mid ++ [e])) (hu : (St.run c (pre ++ mid ++ [e])).ub = false)
    (hq : (St.run c pre).settled) {since : Nat} (hsince : since = (St.run c pre).sent.length)
    (hr : EmitReturns c (St.run c (pre ++ mid)) e ct since) {j : Nat}
    (hj : (St.run c (pre ++ mid ++ [e])).child j = .waiting) :
    (¬ Reached (pre ++ mid ++ [e]) j → (j, ct) ∈ recent since (St.run c (pre ++ mid ++ [e])).sent) ∧
    (Reached pre j → j ∉ (recent since (St.run c (pre ++ mid ++ [e])).sent).map Prod.fst) := by
  have hstep : St.run c (pre ++ mid ++ [e]) = (St.run c (pre ++ mid)).step c e := by
    simp [St.run, St.steps, List.foldl_append]
  have hl2 : Legal c {} (pre ++ mid) ∧ (St.run c (pre ++ mid)).can c e = true := by
    have := legal_split (pre ++ mid) hl
    exact ⟨this.1, this.2.1⟩
  constructor
  · intro hn
    have h1 := (Rch.run hc hk hl hu).new j hn hj
    rw [hstep] at h1 hj hu ⊢
    exact emit_returns hc hl2.1 hl2.2 hu hr hj h1
  · intro hp
    rw [List.append_assoc] at hl hu hj ⊢
    obtain ⟨l1, l2⟩ := legal_split pre hl
    have hrun : St.run c (pre ++ (mid ++ [e])) = (St.run c pre).steps c (mid ++ [e]) := steps_split c pre _ {}
    have hu1 : (St.run c pre).ub = false := by
      cases hx : (St.run c pre).ub
      · rfl
      · rw [hrun, steps_ub (c := c) _ hx] at hu; simp at hu
    have ha1 := All.run hc l1 hu1
    have ha := All.run hc hl hu
    have hask : Asked pre (St.run c pre) := asked_run hc pre [] (All.init c) ⟨by simp, by simp⟩ l1 hu1
    have hw : (St.run c pre).child j = .waiting := by
      rcases hask.started j hp.asked with h | h
      · exact h
      · exfalso
        have h1 := ha.hist.ended j
        rw [hj] at h1
        have h2 : outcome (pre ++ (mid ++ [e])) j = none := by
          cases hx : outcome (pre ++ (mid ++ [e])) j
          · rfl
          · rw [hx] at h1; simp [CS.ended] at h1
        rw [ha1.hist.ended j, outcome_prefix h2] at h
        simp at h
    have hsig : (St.run c pre).sig j = false := by
      cases hx : (St.run c pre).sig j
      · rfl
      · exact absurd ((Rch.run hc hk l1 hu1).sig j hp hw hx) (not_busy hq).1
    have hno : .notReady j ∉ mid ++ [e] := asked_once hc _ pre ha1 hask hp.asked l2 (by rw [← hrun]; exact hu)
    obtain ⟨-, l, h1, h2⟩ := mute_steps c j (mid ++ [e]) (St.run c pre) hsig hno
    rw [hrun, h1, hsince]
    unfold recent
    rw [List.length_append, Nat.add_sub_cancel, List.take_left]
    intro h
    obtain ⟨x, hx, hy⟩ := List.mem_map.1 h
    exact h2 x hx hy

/-- Three; the first is told that the second has won, the third, started later, is not: a cancellation
from outside is sent to the third only. -/
example : Legal (three .race) {} (lateRun ++ [.cancel 4] ++ [.ret false]) ∧
    EmitReturns (three .race) (St.run (three .race) (lateRun ++ [.cancel 4])) (.ret false) 4 1 ∧
    (St.run (three .race) lateRun).sent = [(0, 7)] ∧
    (St.run (three .race) (lateRun ++ [.cancel 4] ++ [.ret false])).sent = [(2, 4), (0, 7)] :=
  ⟨by decide, Or.inr ⟨2, false, [], rfl, by decide, by decide⟩, by decide, by decide⟩

end Cobalt.Comb
