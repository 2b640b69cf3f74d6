import Verif.Gen.ForLemmas
/-! Property C84: `BOOST_COBALT_FOR` over a generator. -/
namespace Cobalt.Gen.For

/-- What the loop should have done, from what the body of the generator gave so far (`outs`)
and whether it has ended: the body of the loop ran with the values, in order. The loop ended
normally if the generator ended without an error, and by the error if with one; nothing else
but an interruption throws. A loop that waits has seen everything. -/
def Right (es : List Ev) (l : St) : Prop :=
  l.seen.map .val <+: (spec (others es)).outs ∧
  match l.phase with
  | .head | .broken => True
  | .waiting _ => (spec (others es)).ended = false ∧ (spec (others es)).outs = l.seen.map .val
  | .finished => (spec (others es)).ended = true ∧ (spec (others es)).outs = l.seen.map .val
  | .thrown e => e = .detached ∧ interrupted es = true ∨
      (spec (others es)).ended = true ∧ (spec (others es)).outs = l.seen.map .val ++ [.err e]
  | .destroyed => (spec (others es)).ended = true ∧ (spec (others es)).outs = l.seen.map .val ++ [.err .unexpected]

/-- **C84** in full: in every possible history of a loop over a generator nothing undefined
happens and the loop does the right thing. -/
def C84 (v : Bool) : Prop := ∀ es, Legal { g := { void := v } } es →
  (St.run v es).g.ub = false ∧ Right es (St.run v es)

/-- **C84** unless the body of the generator awaits `this_coro::initial` while it is awaited.
Generators lazy or eager, interrupted, destroyed, left by `break`, in any interleaving of the
loop with the body of the generator and the executor. -/
theorem C84_partial (v : Bool) (es : List Ev) (hl : Legal { g := { void := v } } es)
    (hk : Calm { g := { void := v } } es) :
    (St.run v es).g.ub = false ∧ Right es (St.run v es) := by
  have h := LI.after hl hk
  obtain ⟨u, hi⟩ := h.inv
  refine ⟨hi.ub, ?_, ?_⟩
  · have := hi.pre
    rw [h.log, List.filter_append, filter_vals] at this
    exact List.IsPrefix.trans (List.prefix_append _ _) this
  · split <;> rename_i hp
    · trivial
    · trivial
    · rename_i a
      have ha := h.waiting a hp
      have hr := h.recv (.inr ⟨a, hp⟩)
      have hd : (St.run v es).g.done = false := by
        cases hx : (St.run v es).g.done with
        | false => rfl
        | true => have := hi.doneA hx; rw [ha] at this; simp at this
      have hres : (St.run v es).g.result = none := by
        cases hx : (St.run v es).g.result with
        | none => rfl
        | some y =>
          have h1 := hi.waitsN (by simp [ha]) (by simp [hx])
          have h2 := h.runR hr h1.2.2
          simp [hx] at h2
      have hexc : (St.run v es).g.exc = none := by
        cases hx : (St.run v es).g.exc with
        | none => rfl
        | some y => have := (hi.exc y hx).2; simp [hd] at this
      have he := hi.ended hr
      rw [hd] at he
      exact ⟨he.symm, h.outs hr hres hexc (by simp [hp, Phase.err])⟩
    · have := h.finished hp
      exact ⟨this.1, this.2.1⟩
    · rename_i e
      rcases h.thrown e hp with h0 | ⟨h1, h2, -⟩
      · exact .inl h0
      · exact .inr ⟨h1, h2⟩
    · have := h.destroyed hp
      exact ⟨this.1, this.2.1⟩

/-- The loop cannot go on for ever once the body of the generator has ended: as many turns as
there are values left, and one. -/
theorem C84_ends_partial (v : Bool) (es : List Ev) (hl : Legal { g := { void := v } } es)
    (hk : Calm { g := { void := v } } es) (hp : (St.run v es).phase = .head)
    (he : (spec (others es)).ended = true) :
    ∃ n, n ≤ (spec (others es)).outs.length - (St.run v es).seen.length + 1 ∧
      ((St.run v (es ++ List.replicate n .turn)).phase = .finished ∨
       ∃ e, (St.run v (es ++ List.replicate n .turn)).phase = .thrown e) := by
  have key : ∀ (k : Nat) (i : Bool) (p : Sp) (l : St), LI i p l → l.phase = .head → p.ended = true →
      p.outs.length - l.seen.length = k →
      ∃ n, n ≤ k + 1 ∧ ((l.steps (List.replicate n .turn)).phase = .finished ∨
        ∃ e, (l.steps (List.replicate n .turn)).phase = .thrown e) := by
    intro k
    induction k with
    | zero =>
      intro i p l h hp he hk
      obtain ⟨u, hi⟩ := h.inv
      have hd : l.g.done = true := (hi.ended (h.recv (.inl hp))).trans he
      have hs : l.steps (List.replicate 1 .turn) = l.turn := by simp [St.steps, St.step, St.can, hp]
      refine ⟨1, by omega, ?_⟩
      rw [hs]
      rcases h.turn_done hp hd with h1 | h1 | ⟨-, h1⟩
      · exact .inl h1
      · exact .inr h1
      · obtain ⟨u', hi'⟩ := (h.turn hp).inv
        have := hi'.pre
        rw [(h.turn hp).log, List.filter_append, filter_vals] at this
        have := (List.IsPrefix.trans (List.prefix_append _ _) this).length_le
        simp only [List.length_map] at this
        omega
    | succ k ih =>
      intro i p l h hp he hk
      obtain ⟨u, hi⟩ := h.inv
      have hd : l.g.done = true := (hi.ended (h.recv (.inl hp))).trans he
      have hs : ∀ n, l.steps (List.replicate (n + 1) .turn) = l.turn.steps (List.replicate n .turn) := by
        intro n
        simp [St.steps, St.step, St.can, hp, List.replicate_succ]
      rcases h.turn_done hp hd with h1 | h1 | ⟨h0, h1⟩
      · exact ⟨1, by omega, .inl (by rw [hs 0]; exact h1)⟩
      · exact ⟨1, by omega, .inr (by rw [hs 0]; exact h1)⟩
      · obtain ⟨n, hn, hx⟩ := ih i p l.turn (h.turn hp) h0 he (by omega)
        exact ⟨n + 1, by omega, by rw [hs n]; exact hx⟩
  obtain ⟨n, hn, hx⟩ := key _ _ _ _ (LI.after hl hk) hp he rfl
  refine ⟨n, hn, ?_⟩
  have : ∀ n, St.run v (es ++ List.replicate n .turn) = (St.run v es).steps (List.replicate n .turn) := by
    intro n; simp [St.run, St.steps]
  rw [this]
  exact hx

/-- An eager generator: a value before the loop looks, one while it waits, the last one
returned while the body of the loop runs. -/
def eager : List Ev :=
  [.other (.yield 1), .turn, .turn, .other .run, .other (.yield 2), .other .run, .other (.ret 3), .turn, .turn, .other .drop]

/-- A lazy one, which throws. -/
def lazy : List Ev :=
  [.other .initial, .turn, .other (.yield 1), .turn, .other (.yield 2), .turn, .other (.throw 7), .other .drop]

/-- One that is interrupted and goes on. -/
def stopped : List Ev :=
  [.other .initial, .turn, .other (.yield 1), .turn, .other (.interrupt 1), .other (.yield 2), .other .drop]

example : Legal { g := {} } eager ∧ Calm { g := {} } eager ∧ (St.run false eager).seen = [1, 2, 3] ∧
    (St.run false eager).phase = .finished := by decide

example : Legal { g := { void := true } } lazy ∧ Calm { g := { void := true } } lazy ∧ (St.run true lazy).seen = [1, 2] ∧
    (St.run true lazy).phase = .thrown (.user 7) := by decide

example : Legal { g := { void := true } } stopped ∧ Calm { g := { void := true } } stopped ∧
    (St.run true stopped).seen = [1] ∧ (St.run true stopped).phase = .thrown .detached ∧
    (spec (others stopped)).outs = [.val 1, .val 2] := by decide

/-- The hypotheses of `C84_ends_partial`: one value is left. -/
example : Legal { g := {} } (eager.take 7) ∧ Calm { g := {} } (eager.take 7) ∧
    (St.run false (eager.take 7)).phase = .head ∧ (spec (others (eager.take 7))).ended = true ∧
    (spec (others (eager.take 7))).outs.length = 3 ∧ (St.run false (eager.take 7)).seen = [1, 2] := by decide

/-- A loop whose coroutine is destroyed with that of the generator. -/
example : Legal { g := {} } [.turn, .other .kill] ∧ (St.run false [.turn, .other .kill]).phase = .destroyed := by decide

/-- **C84** does not hold in full: the body of the generator awaits `this_coro::initial` after the
loop has started to wait. The loop is left by the error of an exhausted generator, though the
generator has not ended. -/
theorem C84_violated (v : Bool) : ¬C84 v := by
  intro h
  have := (h [.turn, .other .initial] (by cases v <;> decide)).2
  have hp : (St.run v [.turn, .other .initial]).phase = .thrown .returnedVoid := by cases v <;> decide
  unfold Right at this
  rw [hp] at this
  revert this
  cases v <;> decide

/-- That is the only way: of the possible histories exactly those are wrong. -/
theorem C84_exact (v : Bool) (es : List Ev) (hl : Legal { g := { void := v } } es) :
    ((St.run v es).g.ub = false ∧ Right es (St.run v es)) ↔ Calm { g := { void := v } } es := by
  refine ⟨fun ⟨_, h⟩ => Classical.byContradiction fun hk => ?_, C84_partial v es hl⟩
  have hp : (St.run v es).phase = .thrown .returnedVoid := LI.rudely es (LI.init v) hl hk
  unfold Right at h
  rw [hp] at h
  rcases h.2 with h0 | ⟨-, h0⟩
  · exact absurd h0.1 (by decide)
  · have := outs_body (others es) (p := {}) (by simp) (.err .returnedVoid) (by
      have e : Sp.steps {} (others es) = spec (others es) := rfl
      rw [e, h0]; simp)
    exact absurd this (by decide)

end Cobalt.Gen.For
