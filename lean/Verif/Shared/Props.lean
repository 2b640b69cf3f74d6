import Verif.Shared.Waits

/-!
# C131: several coroutines wait for one `wait_group`
-/
namespace Cobalt.Shared
open Group (Out Res)

/-- C131 does not hold: one coroutine awaits `wait_one`, another one `wait`. The second goes on at once, although the member has
not ended; the promise is destroyed, and the first coroutine with it. -/
theorem C131_violated : ¬ C131Holds := by
  intro h
  have := (h [.push 0, .waitOne [0], .waitAll] (by decide)).killed
  exact absurd this (by decide)

/-- It can even be undefined: `wait_one` begins to wait for a member that was added while another `wait_one` was pending, and then
comes to the member that one waits for. -/
theorem C131_undefined : ∃ es, Legal {} es ∧ (St.run es).ub = true :=
  ⟨[.push 0, .waitOne [0], .push 1, .waitOne [1, 0]], by decide, by decide⟩

/-- **When it is undefined, exactly.** -/
theorem C131_undefined_exact (es : List Ev) (hl : Legal {} es) :
    (St.run es).ub = true ↔ ∃ p e q, es = p ++ e :: q ∧ (St.run p).ub = false ∧ Reused (St.run p) e := by
  induction es using snoc_ind with
  | h0 =>
    refine ⟨fun h => (by cases h), fun ⟨p, e, q, h, _⟩ => ?_⟩
    have := congrArg List.length h
    simp at this
  | h1 es e ih =>
    obtain ⟨h1, hc⟩ := legal_snoc hl
    have ih := ih h1
    cases hu : (St.run es).ub with
    | true =>
      obtain ⟨p, e', q, rfl, h2, h3⟩ := ih.1 hu
      refine ⟨fun _ => ⟨p, e', q ++ [e], by simp, h2, h3⟩, fun _ => ?_⟩
      rw [run_snoc]
      simp [St.step, hu]
    | false =>
      have hstep : St.run (es ++ [e]) = (St.run es).act e := by
        rw [run_snoc]; simp [St.step, hu, hc]
      rw [hstep, ub_step (WF.run h1 hu) hu hc]
      refine ⟨fun h => ⟨es, e, [], rfl, hu, h⟩, fun ⟨p, e', q, he, h2, h3⟩ => ?_⟩
      rcases List.eq_nil_or_concat q with rfl | ⟨q', x, rfl⟩
      · obtain ⟨h4, h5⟩ := List.append_inj' he rfl
        subst h4
        cases h5
        exact h3
      · rw [List.concat_eq_append, ← List.cons_append, ← List.append_assoc] at he
        obtain ⟨h4, -⟩ := List.append_inj' he rfl
        rw [ih.2 ⟨p, e', q', h4, h2, h3⟩] at hu
        cases hu

-- with another order of the same members, and with a member that has ended, all is defined
example : (St.run [.push 0, .waitOne [0], .push 1, .waitOne [0, 1]]).ub = false ∧
    (St.run [.push 0, .waitOne [0], .push 1, .complete 1 .ok, .waitOne [1, 0]]).ub = false ∧
    (St.run [.push 0, .push 1, .waitAll, .push 2, .waitOne [2, 0, 1]]).ub = false := by decide

/-- `reap` does not remove a member whose exception a `wait_one` has thrown: it stays, and the next `wait_one` has it as its
result at once. -/
theorem C131_reap : ((St.run [.push 0, .push 1, .waitOne [0, 1], .complete 0 (.err 3), .reap]).members.map Mem.id = [0, 1]) ∧
    (St.run [.push 0, .push 1, .waitOne [0, 1], .complete 0 (.err 3), .reap, .waitOne [1, 0]]).log =
      [(1, .err 3), (0, .err 3)] ∧
    (St.run [.push 0, .push 1, .complete 0 (.err 3), .reap]).members.map Mem.id = [1] := by decide

/-- **C131, exactly**: all is well if and only if none of the events of `Trouble` happens. -/
theorem C131_exact (es : List Ev) (hl : Legal {} es) :
    Fine es (St.run es) ↔ ∀ p e q, es = p ++ e :: q → ¬ Trouble (St.run p) e := by
  induction es using snoc_ind with
  | h0 =>
    refine ⟨fun _ p e q h => ?_, fun _ => ⟨rfl, rfl, by simp [St.run, St.steps], by simp [St.run, St.steps]⟩⟩
    have := congrArg List.length h
    simp at this
  | h1 es e ih =>
    obtain ⟨h1, hc⟩ := legal_snoc hl
    have ih := ih h1
    constructor
    · intro hf p e' q he ht
      -- it was fine before
      have hub : (St.run es).ub = false := by
        cases hu : (St.run es).ub with
        | false => rfl
        | true =>
          have := hf.ub
          rw [run_snoc] at this
          simp [St.step, hu] at this
      have hw := WF.run h1 hub
      have hstep : St.run (es ++ [e]) = (St.run es).act e := by
        rw [run_snoc]; simp [St.step, hub, hc]
      rw [hstep] at hf
      have hf0 := not_fine hw hc hf
      rcases List.eq_nil_or_concat q with rfl | ⟨q', x, rfl⟩
      · obtain ⟨h2, h3⟩ := List.append_inj' he rfl
        subst h2
        cases h3
        exact trouble_step hw hc ht hf
      · rw [List.concat_eq_append, ← List.cons_append, ← List.append_assoc] at he
        obtain ⟨h2, -⟩ := List.append_inj' he rfl
        exact ih.1 hf0 p e' q' h2 ht
    · intro hno
      have hf0 := ih.2 fun p e' q he => hno p e' (q ++ [e]) (by rw [he]; simp)
      have hw := WF.run h1 hf0.ub
      have hstep : St.run (es ++ [e]) = (St.run es).act e := by
        rw [run_snoc]; simp [St.step, hf0.ub, hc]
      rw [hstep]
      exact fine_step hw hc hf0 (hno es e [] rfl)

-- a `wait_one`, and another one that comes to a member that has ended; a `wait` that begins while a `wait_one` is pending
example : Legal {} [.push 0, .waitOne [0], .push 1, .complete 1 .ok, .waitOne [1, 0], .push 2, .waitAll, .complete 0 .ok,
    .complete 2 .ok] ∧ Fine [.push 0, .waitOne [0], .push 1, .complete 1 .ok, .waitOne [1, 0], .push 2, .waitAll,
      .complete 0 .ok, .complete 2 .ok] (St.run [.push 0, .waitOne [0], .push 1, .complete 1 .ok, .waitOne [1, 0], .push 2,
      .waitAll, .complete 0 .ok, .complete 2 .ok]) := by
  refine ⟨by decide, by decide, by decide, ?_, ?_⟩
  · have : (St.run [.push 0, .waitOne [0], .push 1, .complete 1 .ok, .waitOne [1, 0], .push 2, .waitAll, .complete 0 .ok,
        .complete 2 .ok]).gone.map Mem.id = [2, 0, 1] := by decide
    intro m hm
    have hm := List.mem_map_of_mem (f := Mem.id) hm
    rw [this] at hm
    simp only [List.mem_cons, List.not_mem_nil, or_false] at hm
    rcases hm with h | h | h <;> rw [h] <;> exact ⟨.ok, by simp⟩
  · have : (St.run [.push 0, .waitOne [0], .push 1, .complete 1 .ok, .waitOne [1, 0], .push 2, .waitAll, .complete 0 .ok,
        .complete 2 .ok]).log = [(2, .ok), (0, .ok), (1, .ok)] := by decide
    rw [this]
    simp

-- a wait that goes wrong
example : Trouble (St.run [.push 0, .waitOne [0]]) .waitAll :=
  ⟨⟨{ id := 0, aw := some 0 }, by decide, rfl⟩, by
    intro m hm _
    have : (St.run [.push 0, .waitOne [0]]).members = [{ id := 0, aw := some 0 }] := by decide
    rw [this, List.mem_singleton] at hm
    subst hm
    exact Option.some_ne_none 0⟩

/-- **C131, what the code does guarantee**: if no wait begins before the others have ended, and nothing is added while a `wait` is
pending, then all is well. -/
theorem C131_partial (es : List Ev) (hl : Legal {} es) (ha : Apart es) : Fine es (St.run es) := by
  suffices h : Fine es (St.run es) ∧ Total (St.run es) from h.1
  induction es using snoc_ind with
  | h0 =>
    refine ⟨⟨rfl, rfl, by simp [St.run, St.steps], by simp [St.run, St.steps]⟩, ?_⟩
    intro w _ m hm
    cases hm
  | h1 es e ih =>
    obtain ⟨h1, hc⟩ := legal_snoc hl
    obtain ⟨hf, ht⟩ := ih h1 fun p e' q he => ha p e' (q ++ [e]) (by rw [he]; simp)
    have hw := WF.run h1 hf.ub
    have hstep : St.run (es ++ [e]) = (St.run es).act e := by
      rw [run_snoc]; simp [St.step, hf.ub, hc]
    obtain ⟨h2, h3⟩ := ha es e [] rfl
    have hid : (e = .waitAll ∨ ∃ order, e = .waitOne order) → ∀ m ∈ (St.run es).members, m.aw = none :=
      fun he => idle_of hw (h2 he)
    rw [hstep]
    refine ⟨fine_step hw hc hf ?_, total_act hw hc ht hid h3⟩
    intro htr
    cases e with
    | push id => exact htr
    | reap => exact htr
    | waitOne order =>
      obtain ⟨i, m, -, hm, -, hne⟩ := htr
      exact hne (hid (.inr ⟨order, rfl⟩) m (List.mem_of_getElem? hm))
    | waitAll =>
      obtain ⟨⟨m, hm, ho⟩, hall⟩ := htr
      exact hall m hm ho (hid (.inl rfl) m hm)
    | complete id o =>
      obtain ⟨w, m, hm, -, -, hwt, hlast, x, hx, hne, hxo⟩ := htr
      exact hne (hlast x hx (ht w hwt x hx hxo))

example : Legal {} [.push 0, .push 1, .waitOne [1, 0], .push 2, .complete 1 .ok, .waitAll, .complete 0 .ok,
    .complete 2 (.err 5)] ∧ (St.run [.push 0, .push 1, .waitOne [1, 0], .push 2, .complete 1 .ok, .waitAll, .complete 0 .ok,
      .complete 2 (.err 5)]).log = [(1, .ok), (0, .ok)] := by decide

/-- Everybody who has begun to wait waits, or has gone on, once, or was destroyed; and only one of these. -/
theorem C131_account (es : List Ev) (hl : Legal {} es) :
    ((St.run es).log.map Prod.fst).Nodup ∧ ∀ w < (St.run es).next,
      ((St.run es).over w ∨ w ∈ (St.run es).killed ∨ (St.run es).busy w = true) ∧
      ¬ ((St.run es).over w ∧ w ∈ (St.run es).killed) ∧
      ¬ ((St.run es).over w ∧ (St.run es).busy w = true) ∧
      ¬ (w ∈ (St.run es).killed ∧ (St.run es).busy w = true) := by
  obtain ⟨p, q, -, hr, hw, -⟩ := reach hl
  rw [hr]
  refine ⟨hw.logN, fun w hlt => ⟨?_, ?_, ?_, ?_⟩⟩
  · rcases hw.all w hlt with h | h | h | h
    · exact .inl h
    · exact .inr (.inl h)
    · exact .inr (.inr ((busy_iff _ _).2 h))
    · cases h
  · rintro ⟨⟨r, h1⟩, h2⟩
    exact (hw.log w r h1).2.1 h2
  · rintro ⟨⟨r, h1⟩, h2⟩
    obtain ⟨m, hm, h3⟩ := (busy_iff _ _).1 h2
    exact (hw.aw m hm w h3).2.2.2 r h1
  · rintro ⟨h1, h2⟩
    obtain ⟨m, hm, h3⟩ := (busy_iff _ _).1 h2
    exact (hw.aw m hm w h3).2.2.1 h1

/-- **Two pending `wait`s never both end**: if one of them does, the coroutine that awaits the other one has been destroyed. -/
theorem C131_two (es fs : List Ev) (hl : Legal {} (es ++ fs)) (v w : Nat) (hne : v ≠ w) (hv : (St.run es).waiting v)
    (hw : (St.run es).waiting w) (ho : (St.run (es ++ fs)).over v) : w ∈ (St.run (es ++ fs)).killed := by
  have key : ((St.run (es ++ fs)).waiting v ∧ (St.run (es ++ fs)).waiting w) ∨ v ∈ (St.run (es ++ fs)).killed ∨
      w ∈ (St.run (es ++ fs)).killed := by
    clear ho
    induction fs using snoc_ind with
    | h0 => rw [List.append_nil]; exact .inl ⟨hv, hw⟩
    | h1 fs e ih =>
      rw [← List.append_assoc] at hl ⊢
      obtain ⟨h1, hc⟩ := legal_snoc hl
      have ih := ih h1
      cases hu : (St.run (es ++ fs)).ub with
      | true =>
        have : St.run (es ++ fs ++ [e]) = St.run (es ++ fs) := by rw [run_snoc]; simp [St.step, hu]
        rw [this]; exact ih
      | false =>
        have hwf := WF.run h1 hu
        have hstep : St.run (es ++ fs ++ [e]) = (St.run (es ++ fs)).act e := by
          rw [run_snoc]; simp [St.step, hu, hc]
        rw [hstep]
        have hg := grow hwf hc
        rcases ih with ⟨i1, i2⟩ | i1 | i1
        · rcases after_act hwf hc i1 with a | a | ⟨-, a⟩
          · rcases after_act hwf hc i2 with b | b | ⟨-, b⟩
            · exact .inl ⟨a, b⟩
            · exact .inr (.inr b)
            · exact .inr (.inl (b v i1.1 hne))
          · exact .inr (.inl a)
          · exact .inr (.inr (a w i2.1 (Ne.symm hne)))
        · exact .inr (.inl (hg.killed v i1))
        · exact .inr (.inr (hg.killed w i1))
  obtain ⟨p, q, -, hr, hwf, -⟩ := reach hl
  rw [hr] at key ho ⊢
  obtain ⟨r, ho⟩ := ho
  rcases key with ⟨k1, -⟩ | k | k
  · obtain ⟨m, hm, h3⟩ := (busy_iff _ _).1 k1.1
    exact absurd ho ((hwf.aw m hm v h3).2.2.2 r)
  · exact absurd k (hwf.log v r ho).2.1
  · exact k

example : Legal {} [.push 0, .waitAll, .push 1, .waitAll, .complete 1 .ok] ∧
    (St.run [.push 0, .waitAll, .push 1, .waitAll]).waiting 0 ∧ (St.run [.push 0, .waitAll, .push 1, .waitAll]).waiting 1 ∧
    (1, Res.ok) ∈ (St.run [.push 0, .waitAll, .push 1, .waitAll, .complete 1 .ok]).log ∧
    0 ∈ (St.run [.push 0, .waitAll, .push 1, .waitAll, .complete 1 .ok]).killed := by
  refine ⟨by decide, ⟨by decide, ?_⟩, ⟨by decide, ?_⟩, by decide, by decide⟩
  all_goals
    intro x hx
    have : (St.run [.push 0, .waitAll, .push 1, .waitAll]).one = none := by decide
    rw [this] at hx
    cases hx

/-- While all is well, a `wait` ends only when everything that was ever added to the group has ended. -/
theorem C131_wait (es : List Ev) (e : Ev) (hl : Legal {} (es ++ [e])) (hf : Fine (es ++ [e]) (St.run (es ++ [e]))) (w : Nat)
    (hw : (St.run es).waiting w ∨ (e = .waitAll ∧ w = (St.run es).next)) (ho : (St.run (es ++ [e])).over w) (id : Nat)
    (ha : Added (es ++ [e]) id) : Ended (es ++ [e]) id := by
  obtain ⟨h1, hc⟩ := legal_snoc hl
  have hwf := WF.run hl hf.ub
  have hub : (St.run es).ub = false := by
    cases hu : (St.run es).ub with
    | false => rfl
    | true =>
      have := hf.ub
      rw [run_snoc] at this
      simp [St.step, hu] at this
  have hwf0 := WF.run h1 hub
  have hstep : St.run (es ++ [e]) = (St.run es).act e := by
    rw [run_snoc]; simp [St.step, hub, hc]
  have hempty : (St.run (es ++ [e])).members = [] := by
    obtain ⟨r, ho⟩ := ho
    rcases hw with hw | ⟨rfl, rfl⟩
    · rcases after_act hwf0 hc hw with a | a | ⟨a, -⟩
      · rw [← hstep] at a
        obtain ⟨m, hm, h3⟩ := (busy_iff _ _).1 a.1
        exact absurd ho ((hwf.aw m hm w h3).2.2.2 r)
      · rw [← hstep, hf.killed] at a
        cases a
      · rw [hstep]; exact a
    · rw [hstep]
      rw [hstep] at ho
      simp only [St.act] at ho ⊢
      rcases waitAll_cases (St.run es) with ⟨h2, e⟩ | ⟨-, -, e⟩ | ⟨-, -, e⟩ <;> rw [e]
      · exact h2
      · rw [e] at ho
        exact absurd (hwf0.log _ r ho).1 (by omega)
      · rfl
  rcases hwf.known id (.inr ha) with ⟨m, hm, -⟩ | ⟨m, hm, rfl⟩
  · rw [hempty] at hm; cases hm
  · exact hf.gone m hm

end Cobalt.Shared
