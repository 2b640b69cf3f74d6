import Verif.Comb.LoopsStep
/-! A `gather` on its own signals and interrupts nobody. -/
namespace Cobalt.Comb

theorem quiet_startNext {c : Cfg} (hk : c.kind = .gather) (s : St) :
    (s.startNext c).sent = s.sent ∧ (s.startNext c).intd = s.intd := by
  unfold St.startNext
  split
  · unfold St.endStart
    rw [if_neg (by rw [hk]; simp)]
    unfold St.endStart2
    split <;> exact ⟨rfl, rfl⟩
  · exact ⟨rfl, rfl⟩

theorem quiet_afterStart {c : Cfg} (hk : c.kind = .gather) (s : St) (i : Nat) (d : Bool) :
    (s.afterStart c i d).sent = s.sent ∧ (s.afterStart c i d).intd = s.intd := by
  unfold St.afterStart
  simp only [hk]
  exact quiet_startNext hk s

theorem quiet_finish (s : St) (i : Nat) : (s.finish i).sent = s.sent ∧ (s.finish i).intd = s.intd := by
  unfold St.finish; dsimp only; split <;> exact ⟨rfl, rfl⟩

theorem quiet_done {c : Cfg} (hk : c.kind = .gather) (s : St) (i : Nat) (b d : Bool) :
    (s.done c (.finish i b) d).sent = s.sent ∧ (s.done c (.finish i b) d).intd = s.intd := by
  unfold St.done
  dsimp only
  split
  · have h1 := quiet_afterStart hk (s.finish i) i d
    have h2 := quiet_finish s i
    exact ⟨h1.1.trans h2.1, h1.2.trans h2.2⟩
  · exact quiet_finish s i

/-- No loops are in progress and nothing has been sent. -/
structure Quiet (s : St) : Prop where
  sent : s.sent = []
  intd : s.intd = []
  noExt : Tag.co .ext ∉ s.tags

theorem Quiet.step {c : Cfg} (hk : c.kind = .gather) {g nc : Bool} {s : St} {es : List Ev} (h : All c g nc s es)
    (q : Quiet s) {e : Ev} (hcan : s.can c e = true) (h0 : e ≠ .interrupt ∧ ∀ ct, e ≠ .cancel ct) :
    Quiet (s.step c e) := by
  have hu := h.ub
  have hp := (posted_of_alone (c := c) [e, e] q.noExt (by intro x hx; simp at hx; rw [hx]; exact h0)).2
  have hx : Tag.co .ext ∉ (s.step c e).tags := by
    by_cases hf : ∃ i o, e = .fin i o
    · obtain ⟨i, o, rfl⟩ := hf
      exact hp.1 i o rfl
    · -- use a completion that does not happen
      have := (posted_of_alone (c := c) [e, .fin 0 (.ok 0)] q.noExt (by
        intro x hx; simp only [List.mem_cons, List.not_mem_nil, or_false] at hx
        rcases hx with rfl | rfl
        · exact h0
        · simp)).2
      exact this.1 0 (.ok 0) rfl
  have hsi : (s.step c e).sent = s.sent ∧ (s.step c e).intd = s.intd := by
    unfold St.step
    rw [if_neg (by simp [hu, hcan])]
    cases e with
    | begin =>
      dsimp only
      split
      · exact ⟨rfl, rfl⟩
      · exact quiet_startNext hk _
    | ready i o d =>
      simp only [St.complete, hk]
      exact quiet_done hk _ _ _ _
    | notReady i => exact ⟨rfl, rfl⟩
    | thrown i x d =>
      simp only [St.thrown, hk]
      exact quiet_done hk _ _ _ _
    | fin i o =>
      simp only [St.complete, hk]
      exact quiet_done hk _ _ _ _
    | txn i => simp [St.can, hk] at hcan
    | cancel ct => exact absurd rfl (h0.2 ct)
    | interrupt => exact absurd rfl h0.1
    | ret d =>
      cases hs : s.stack with
      | nil => exact ⟨rfl, rfl⟩
      | cons f rest =>
        have hn := q.noExt
        simp only [St.tags, hs, List.map_cons, List.mem_cons, not_or] at hn
        cases f with
        | asking k => exact ⟨rfl, rfl⟩
        | starting k => exact quiet_afterStart hk { s with stack := rest } _ _
        | intr k co since =>
          have := h.loops.intrK (k + 1) co since (by simp [St.acts, hs, Frame.act])
            (by intro hc; rw [hc] at hn; simp [Frame.tag] at hn)
          rw [hk] at this; simp at this
        | emit k co ct since =>
          have := h.loops.emitK (k + 1) co ct since (by simp [St.acts, hs, Frame.act])
            (by intro hc; rw [hc] at hn; simp [Frame.tag] at hn)
          exact absurd hk this
  exact ⟨hsi.1.trans q.sent, hsi.2.trans q.intd, hx⟩

theorem Quiet.steps {c : Cfg} (hc : c.Ok) (hk : c.kind = .gather) : ∀ (es pre : List Ev) {g nc : Bool} {s : St},
    All c g nc s pre → Quiet s → Legal c s es → (s.steps c es).ub = false →
    (∀ e ∈ es, e ≠ .interrupt ∧ ∀ ct, e ≠ .cancel ct) → Quiet (s.steps c es)
  | [], _, _, _, _, _, q, _, _, _ => q
  | e :: es, pre, g, nc, s, h, q, hl, hu, h0 => by
    rcases h.step hc hl.1 with h1 | h1
    · have := steps_ub (c := c) es h1
      rw [show St.steps c (s.step c e) es = St.steps c s (e :: es) from rfl, hu] at this
      simp at this
    · exact Quiet.steps hc hk es (pre ++ [e]) h1 (q.step hk h hl.1 (h0 e (by simp))) hl.2 hu
        (fun x hx => h0 x (List.mem_cons_of_mem _ hx))

end Cobalt.Comb
