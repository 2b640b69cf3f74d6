import Verif.Rpc.Find
/-! # C117: calls made by threads -/
namespace Cobalt.Rpc

/-- The whole of it: nothing is used after it has been destroyed. -/
def C117 : Prop := ∀ (P : Prog) (es : List Ev), (run P es).ub = false

/-- Every coroutine gets the answers to its own calls, in order and each once, and no exception but its own. -/
theorem C117_right (P : Prog) (es : List Ev) (i : Nat) : (run P es).right P i := by
  have h := Inv.run P es
  refine ⟨h.tak i, fun hd => ?_, fun e he => h.err i e he⟩
  have := h.tak i
  rwa [h.done i hd, List.take_of_length_le (Nat.le_refl _)] at this

/-- What goes wrong: a worker answers a coroutine that has been cancelled because another one failed. -/
theorem C117_why (P : Prog) (es : List Ev) (hu : (run P es).ub = true) :
    ∃ x j i, (run P es).k x = .busy j ∧ (run P es).w j = .aborted ∧ i ≠ j ∧ i < P.works ∧ j < P.works ∧ P.fails i ∧
      P.calls j ≠ [] := by
  have h := Inv.run P es
  obtain ⟨x, j, hk, hw⟩ := h.ub hu
  obtain ⟨i, e, hij, hi⟩ := h.told j (h.abrt j (.inr hw))
  have here : ∀ l, (run P es).w l ≠ .new → l < P.works := fun l hl =>
    Classical.byContradiction fun hn => hl (h.here l (by omega))
  exact ⟨x, j, i, hk, hw, hij, here i (by rw [hi]; simp), here j (by rw [hw]; simp), ⟨e, List.mem_of_getElem? (h.err i e hi)⟩,
    h.nonempty j hw⟩

/-- With two workers or more this is possible exactly if one coroutine fails and another one has a call to make. -/
theorem C117_exact (P : Prog) (h2 : 2 ≤ P.workers) :
    (∃ es, (run P es).ub = true) ↔ ∃ i j, i < P.works ∧ j < P.works ∧ i ≠ j ∧ P.fails i ∧ P.calls j ≠ [] := by
  constructor
  · rintro ⟨es, hu⟩
    obtain ⟨x, j, i, -, -, h1, h3, h4, h5, h6⟩ := C117_why P es hu
    exact ⟨i, j, h3, h4, h1, h5, h6⟩
  · rintro ⟨i, j, hi, hj, hij, hf, hc⟩
    exact reach_ub h2 hi hj hij hf hc

/-- **C117** (partial): if no call throws nothing is used after it has been destroyed, and nobody is cancelled. Missing:
programs with a call that throws, see `C117_violated`. -/
theorem C117_partial (P : Prog) (hf : ∀ i, i < P.works → ¬ P.fails i) (es : List Ev) :
    (run P es).ub = false ∧ ∀ i, (run P es).told i = false := by
  have h := Inv.run P es
  refine ⟨?_, fun i => ?_⟩
  · cases hu : (run P es).ub with
    | false => rfl
    | true =>
      obtain ⟨x, j, i, -, -, -, h3, -, h5, -⟩ := C117_why P es hu
      exact absurd h5 (hf i h3)
  · cases ht : (run P es).told i with
    | false => rfl
    | true =>
      obtain ⟨j, e, -, hj⟩ := h.told i ht
      refine absurd ⟨e, List.mem_of_getElem? (h.err j e hj)⟩ (hf j ?_)
      exact Classical.byContradiction fun hn => by rw [h.here j (by omega)] at hj; cases hj

/-- Nobody waits for ever: where nothing can happen any more all coroutines and all workers have ended. -/
theorem C117_rest (P : Prog) (hw : P.workers ≠ 0) (es : List Ev) (hr : (run P es).rest P) : (run P es).over P :=
  rest_over (Inv.run P es) hw hr

/-- And it comes to that: only so many things can happen. -/
theorem C117_ends (P : Prog) (es : List Ev) : ∃ b, ∀ more, (run P es).allCan P more → more.length ≤ b :=
  ⟨_, fun _ hm => allCan_le (Inv.run P es) hm⟩

/-- If no call throws, every coroutine then has the results of all its calls. -/
theorem C117_results (P : Prog) (hw : P.workers ≠ 0) (hf : ∀ i, i < P.works → ¬ P.fails i) (es : List Ev)
    (hr : (run P es).rest P) (i : Nat) (hi : i < P.works) : P.calls i = ((run P es).res i).map .ok := by
  have h := Inv.run P es
  have hd := (C117_rest P hw es hr).1 i hi
  cases e : (run P es).w i with
  | done => exact (C117_right P es i).2.1 e
  | failed a => exact absurd ⟨a, List.mem_of_getElem? (h.err i a e)⟩ (hf i hi)
  | aborted =>
    have := h.abrt i (.inr e)
    rw [(C117_partial P hf es).2 i] at this; cases this
  | _ => rw [e] at hd; cases hd

/-- Four workers and two coroutines, the second of which makes a call that throws. -/
def twoWorks : Prog where
  works := 2
  workers := 4
  calls i := if i = 0 then [.ok 32] else [.fail 7]

/-- The worker 0 takes the request of the first; the second fails; the first is cancelled and ends; the worker answers. -/
def late : List Ev := [.worker 0, .start 0, .start 1, .join, .resume 0, .worker 1, .resume 1, .worker 1, .resume 1, .resume 0,
  .worker 0]

/-- **C117** (violated): the channel the worker has a pointer to has been destroyed with the coroutine. -/
theorem C117_violated : ¬ C117 := by
  intro h
  have := h twoWorks late
  revert this
  decide

/-! ## Examples -/

/-- Just before: the first coroutine has ended and its request is with a worker. -/
example : (run twoWorks late.dropLast).w 0 = .aborted ∧ (run twoWorks late.dropLast).k 0 = .busy 0 ∧
    (run twoWorks late.dropLast).w 1 = .failed 7 := by decide

/-- The worker is faster: all is well. -/
example : (run twoWorks [.worker 0, .start 0, .start 1, .join, .resume 0, .worker 0, .worker 1, .resume 1, .worker 1, .resume 1,
    .resume 0, .worker 0]).ub = false := by decide

/-- The worker waits for the coroutine when that ends: all is well, too. -/
example : (run twoWorks [.worker 0, .start 0, .start 1, .join, .worker 1, .resume 1, .worker 1, .worker 0, .resume 1, .resume 0]).k 0 =
    .idle := by decide

/-- One worker, two coroutines, no call throws: everything ends, with all results. -/
def calm : Prog where
  works := 2
  workers := 1
  calls i := if i = 0 then [.ok 3, .ok 4] else [.ok 5]

def calmRun : List Ev := [.start 0, .start 1, .join, .worker 0, .resume 0, .worker 0, .resume 0, .worker 0, .worker 0, .worker 0,
  .resume 1, .worker 0, .resume 1, .resume 0, .worker 0, .resume 0, .worker 0, .close, .worker 0]

example : (run calm calmRun).res 0 = [3, 4] ∧ (run calm calmRun).res 1 = [5] ∧ (run calm calmRun).k 0 = .ended ∧
    (run calm calmRun).w 0 = .done ∧ (run calm calmRun).w 1 = .done := by decide

example : ∀ i, i < calm.works → ¬ calm.fails i := by
  intro i hi ⟨e, he⟩
  simp only [calm] at he
  split at he <;> simp at he

end Cobalt.Rpc
