import Verif.Own.Keep
/-!
# C114: what is written to a channel

`co_await c.write(x)` should send the value of `x`, and leave `x` as it is unless the program says `std::move(x)`.
-/
namespace Cobalt.Own
open Chan (Obs WRes RRes)

/-- A reader waits at each of two channels; then variable 0 is written to both: `co_await a.write(x); co_await b.write(x);`,
and the readers go on. -/
def twice (k : Kind) : List Ev :=
  [.chan 0 .mkR, .chan 0 (.awaitR 0 false false []), .chan 1 .mkR, .chan 1 (.awaitR 0 false false []),
    .write 0 0 k false false [], .write 1 0 k false false [], .chan 0 (.run 0), .chan 1 (.run 0)]

theorem twice_fine (k : Kind) : (run (fun _ => 1) (fun _ => 7) (twice k)).fine := by
  intro c
  match c with
  | 0 => cases k <;> rfl
  | 1 => cases k <;> rfl
  | c + 2 => cases k <;> rfl

theorem twice_proper (k : Kind) : Proper (fun _ => 1) (fun _ => 7) (twice k) := by
  refine proper_of fun j hj x hx => not_pending (fun c => ?_) x
  clear hx
  match c with
  | 0 => revert j; cases k <;> decide
  | 1 => revert j; cases k <;> decide
  | c + 2 =>
    match j, hj with
    | 0, _ | 1, _ | 2, _ | 3, _ | 4, _ | 5, _ | 6, _ | 7, _ => cases k <;> exact fun i hi => absurd hi (by exact List.not_mem_nil)

/-- The second write hands on a value that was moved from, although no write of the program is of an rvalue: `write(T &)`
moves as `write(T &&)` does. -/
theorem C114_violated : ∃ cap m es, (run cap m es).fine ∧ Proper cap m es ∧
    (∀ c x k conn txn hits, .write c x k conn txn hits ∈ es → k = .lvalue) ∧
    (∃ c i, Obs.startW i ∈ ((run cap m es).ch c).log ∧ (run cap m es).got c i = some none) ∧ ∃ x, (run cap m es).mem x = none := by
  refine ⟨fun _ => 1, fun _ => 7, twice .lvalue, twice_fine _, twice_proper _, ?_, ⟨1, 0, by decide, by decide⟩, 0, by decide⟩
  intro c x k conn txn hits h
  simp only [twice, List.mem_cons, List.not_mem_nil, or_false, reduceCtorEq, false_or, Ev.write.injEq] at h
  rcases h with h | h
  · exact h.2.2.1
  · exact h.2.2.1

/-- Programs in which nobody touches a variable while a coroutine waits in a write of it: every value that is taken, and so
every value that is read, is the one that was in the variable when the write was made. -/
theorem C114_faithful (cap m : Nat → Nat) (es : List Ev) (hf : (run cap m es).fine) (hp : Proper cap m es) (c i : Nat) :
    (∀ v, (run cap m es).got c i = some v → v = (run cap m es).given c i) ∧
    ∀ j, Obs.doneR j (.value i) ∈ ((run cap m es).ch c).log → (run cap m es).got c i = some ((run cap m es).given c i) := by
  have p := PI.run hf hp
  have o := OI.run hf
  refine ⟨p.eq c i, fun j hj => ?_⟩
  have hd : i ∈ Chan.delivered ((run cap m es).ch c).log := List.mem_filterMap.2 ⟨_, hj, rfl⟩
  have ht : took ((run cap m es).ch c) i = true := by
    simp only [took, Bool.or_eq_true, decide_eq_true_eq]
    exact (o.ci c).tk.srcD i hd
  cases hg : (run cap m es).got c i with
  | none => have := (o.got c i).1 ht; rw [hg] at this; cases this
  | some v => rw [p.eq c i v hg]

example : (run (fun _ => 1) (fun _ => 7) (twice .const)).fine ∧ Proper (fun _ => 1) (fun _ => 7) (twice .const) ∧
    Obs.doneR 0 (.value 0) ∈ ((run (fun _ => 1) (fun _ => 7) (twice .const)).ch 1).log ∧
    (run (fun _ => 1) (fun _ => 7) (twice .const)).got 0 0 = some (some 7) ∧
    (run (fun _ => 1) (fun _ => 7) (twice .const)).got 1 0 = some (some 7) :=
  ⟨twice_fine _, twice_proper _, by decide, by decide, by decide⟩

/-- When a variable loses its value: if and only if a write of it by `write(T &)` or `write(T &&)` is taken. Nothing but
this and an assignment changes it. -/
theorem C114_exact (cap m : Nat → Nat) (es : List Ev) (e : Ev) (hf : (run cap m (es ++ [e])).fine) (x : Nat)
    (he : ∀ v, e ≠ .set x v) (h : (run cap m es).mem x ≠ none) :
    ((run cap m (es ++ [e])).mem x = none ↔ ∃ c i, (run cap m es).got c i = none ∧
      ((run cap m (es ++ [e])).got c i).isSome = true ∧ (run cap m (es ++ [e])).src c i = x ∧
      ((run cap m (es ++ [e])).kind c i = .lvalue ∨ (run cap m (es ++ [e])).kind c i = .rvalue)) ∧
    ((run cap m (es ++ [e])).mem x = none ∨ (run cap m (es ++ [e])).mem x = (run cap m es).mem x) := by
  have mv : ∀ k : Kind, k.moves = true ↔ k = .lvalue ∨ k = .rvalue := by intro k; cases k <;> simp [Kind.moves]
  rw [run_snoc] at hf ⊢
  rcases step_mem (OI.run (fine_step hf)) hf he with ⟨h1, h2⟩ | ⟨h1, h2⟩
  · refine ⟨⟨fun _ => ?_, fun _ => h1⟩, .inl h1⟩
    obtain ⟨c, i, a, b, d, f⟩ := h2
    exact ⟨c, i, a, b, d, (mv _).1 f⟩
  · refine ⟨⟨fun h3 => absurd (h1.symm.trans h3) h, fun ⟨c, i, a, b, d, f⟩ => absurd ⟨c, i, a, b, d, (mv _).2 f⟩ h2⟩, .inr h1⟩

example : (run (fun _ => 1) (fun _ => 7) ((twice .lvalue).take 4 ++ [.write 0 0 .lvalue false false []])).mem 0 = none ∧
    (run (fun _ => 1) (fun _ => 7) ((twice .const).take 4 ++ [.write 0 0 .const false false []])).mem 0 = some 7 := by decide

theorem last_snoc (x v : Nat) (es : List Ev) (e : Ev) :
    last x v (es ++ [e]) = last x (last x v es) [e] := by
  induction es generalizing v with
  | nil => rfl
  | cons a es ih =>
    cases a with
    | set y w => simp only [List.cons_append, last]; split <;> exact ih _
    | write => simp only [List.cons_append, last]; exact ih _
    | chan => simp only [List.cons_append, last]; exact ih _

/-- A variable that is written as a constant only keeps what was assigned to it last. -/
theorem C114_partial (cap m : Nat → Nat) (es : List Ev) (hf : (run cap m es).fine) (x : Nat) (hc : copies x es) :
    (run cap m es).mem x = some (last x (m x) es) := by
  revert hf hc
  refine own_ind (P := fun es => (run cap m es).fine → copies x es → (run cap m es).mem x = some (last x (m x) es))
    (fun _ _ => rfl) (fun es e ih hf hc => ?_) es
  have hf' := hf
  rw [run_snoc] at hf' ⊢
  have ih := ih (fine_step hf') fun c k conn txn hits h => hc c k conn txn hits (List.mem_append_left _ h)
  rw [last_snoc]
  by_cases he : ∃ v, e = .set x v
  · obtain ⟨v, rfl⟩ := he
    simp [St.step, Chan.upd, last]
  · have he' : ∀ v, e ≠ .set x v := fun v h => he ⟨v, h⟩
    have hl : last x (last x (m x) es) [e] = last x (m x) es := by
      cases e with
      | set y w =>
        have : y ≠ x := fun h => he ⟨w, by rw [h]⟩
        simp [last, this]
      | write => rfl
      | chan => rfl
    rcases step_mem (OI.run (fine_step hf')) hf' he' with ⟨-, c, i, h1, h2, h3, h4⟩ | ⟨h1, -⟩
    · have ht := ((step_cases (OI.run (fine_step hf')) e hf').1.got c i).2 h2
      have hs := took_start ((step_cases (OI.run (fine_step hf')) e hf').1.ci c) ht
      rw [← run_snoc] at hs h3 h4
      obtain ⟨conn, txn, hits, hw⟩ := from_write hf hs
      rw [h3] at hw
      rcases hc _ _ _ _ _ hw with hk | hk <;> (rw [hk] at h4; cases h4)
    · rw [h1, ih, hl]

example : copies 0 (twice .const) ∧ (run (fun _ => 1) (fun _ => 7) (twice .const)).mem 0 = some 7 := by
  refine ⟨?_, by decide⟩
  intro c k conn txn hits h
  simp only [twice, List.mem_cons, List.not_mem_nil, or_false, reduceCtorEq, false_or, Ev.write.injEq] at h
  rcases h with h | h
  · exact .inl h.2.2.1
  · exact .inl h.2.2.1

/-- A write that fails (the channel is closed, or the write is cancelled) leaves the variable with the value it had when
the write was made, whichever overload was used: the write can be tried again. -/
theorem C114_failed (cap m : Nat → Nat) (es : List Ev) (e : Ev) (hf : (run cap m (es ++ [e])).fine)
    (hp : Proper cap m (es ++ [e])) (c i : Nat) (r : WRes) (hr : r ≠ .ok)
    (h0 : Obs.doneW i r ∉ ((run cap m es).ch c).log) (h1 : Obs.doneW i r ∈ ((run cap m (es ++ [e])).ch c).log) :
    (run cap m (es ++ [e])).got c i = none ∧
    (run cap m (es ++ [e])).mem ((run cap m (es ++ [e])).src c i) = (run cap m (es ++ [e])).given c i := by
  rw [run_snoc] at hf h1 ⊢
  have o := OI.run (fine_step hf)
  have p := PI.run (fine_step hf) hp.snoc.1
  have hx := hp.snoc.2
  generalize run cap m es = s at *
  rcases (step_cases o e hf).2 with ⟨x, v, rfl⟩ | h | ⟨c', t, g, h⟩ | ⟨c', x, k, conn, txn, hits, t, rfl, g, h⟩
  · exact absurd h1 h0
  · rw [h] at h1; exact absurd h1 h0
  · rw [h] at h1 ⊢; exact (p.any c').failed o g hr h0 h1
  · rw [h] at h1 ⊢; exact ((p.any c').point o k (hx x rfl)).failed (point_ok o x k) g hr h0 h1

/-- A write waits, since the channel has no room; then the channel is closed and the writer goes on. -/
example : Obs.doneW 0 .brokenPipe ∉ ((run (fun _ => 0) (fun _ => 7) [.write 0 0 .lvalue false false [], .chan 0 .close]).ch 0).log ∧
    Obs.doneW 0 .brokenPipe ∈ ((run (fun _ => 0) (fun _ => 7)
      ([.write 0 0 .lvalue false false [], .chan 0 .close] ++ [.chan 0 (.run 0)])).ch 0).log ∧
    (run (fun _ => 0) (fun _ => 7) ([.write 0 0 .lvalue false false [], .chan 0 .close] ++ [.chan 0 (.run 0)])).mem 0 = some 7 := by
  decide

end Cobalt.Own
