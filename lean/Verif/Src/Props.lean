import Verif.Src.Steps
/-!
# C120: a coroutine that takes a cancellation source hears what is emitted on it

The full statement: at every time a coroutine that has taken a source hears every
cancellation that is emitted on it until it takes another or ends, the operation it waits for is
told, nobody else is, and nothing is used that is gone. It does not hold (`C120_violated`,
`C120_lost_violated`): a source has room for one coroutine, and the coroutine keeps a pointer into
it.
-/
namespace Cobalt.Src
open Cobalt.Cst (CT Filter)

/-- `asio::cancellation_type::all` -/
def all : CT := { terminal := true, partial_ := true, total := true }

/-- What is gone is used exactly when a coroutine awaits or asks while its source was taken by
another or is gone, or takes or resets a source that is gone. -/
theorem C120_exact (es : List Ev) :
    (St.run {} es).ub = true ↔ ¬Fine (St.run {} es).log := by
  rw [← fine_iff]; simp

example : ¬Fine (St.run {} [.call, .call, .make, .take 0 0, .take 1 0, .ask 0]).log :=
  (C120_exact _).1 (by rfl)

example : Fine (St.run {} [.call, .call, .make, .take 0 0, .take 1 0, .leave 0, .ask 0]).log :=
  (fine_iff _).1 (by rfl)

/-- Otherwise each operation is told exactly what the specification says: the one that the
holder of the source waits for, as the filters make it. -/
theorem C120_told (es : List Ev) (h : (St.run {} es).ub = false) :
    (St.run {} es).got = told (St.run {} es).log := by
  rcases run_inv es with ⟨hi, -⟩ | ⟨hu, -⟩
  · exact hi.got
  · rw [h] at hu; exact absurd hu (by simp)

example : (St.run {} [.call, .make, .take 0 0, .await 0, .emit 0 all]).got = [(0, all)] := by rfl

/-- And `cancelled` gives, and awaits throw for, what the coroutine has heard last since it took
its source or reset its state. -/
theorem C120_honest (es : List Ev) (h : (St.run {} es).ub = false) :
    Honest (St.run {} es).log := by
  rcases run_inv es with ⟨hi, -⟩ | ⟨hu, -⟩
  · exact hi.honest
  · rw [h] at hu; exact absurd hu (by simp)

example : (St.run {} [.call, .make, .emit 0 all, .take 0 0, .await 0, .opEnds 0, .emit 0 all,
    .await 0, .throwIf 0 false, .await 0]).ub = false := by rfl

/-- If sources are not shared and outlive their coroutines, nothing is used that is gone, and each
cancellation on the source of a coroutine reaches the operation it waits for, as its filters make
it. -/
theorem C120_partial (es : List Ev) (h : Exclusive (St.run {} es).log) :
    (St.run {} es).ub = false ∧
      ∀ l1 l2 c g k ct, (St.run {} es).log = l1 ++ .emit g ct :: l2 → src c l2 = some g →
        waitsFor c l2 = some k → (filters c l2).2 ((filters c l2).1 ct) ≠ .none_ →
        (k, (filters c l2).2 ((filters c l2).1 ct)) ∈ (St.run {} es).got := by
  have hu := (fine_iff es).2 (exclusive_fine _ h)
  refine ⟨hu, fun l1 l2 c g k ct e hs hw hf => ?_⟩
  rw [C120_told es hu, e]
  apply told_mem
  rw [e] at h
  have h1 := (exclusive_holds l2 (exclusive_suffix l1 (.emit g ct :: l2) h) c g hs).1
  simp [told, telling, h1, hs, hw, hf]

/-- Two tasks with a source each, one of them told. -/
def two : List Ev := [.call, .call, .make, .make, .take 0 0, .take 1 1, .await 0, .await 1,
  .emit 1 all, .opEnds 1, .ret 1, .drop 1, .emit 0 all, .opEnds 0, .ask 0]

example : Exclusive (St.run {} two).log ∧ (St.run {} two).got = [(0, all), (1, all)] := by
  refine ⟨?_, by rfl⟩
  simp [two, St.run, St.step, St.note, St.runs, St.renew, St.fire, upd, St.clear, St.cancelled,
    St.place, St.tell, Cst.enableTotal, all, CT.none_, Exclusive, exists_, src]

/-- The full statement: nothing is used that is gone. A signal with two tasks, where the first
awaits again, or one that is gone before its task. -/
theorem C120_violated :
    (¬ ∀ es : List Ev, (St.run {} es).ub = false) ∧
    (St.run {} [.call, .call, .make, .take 0 0, .take 1 0, .await 0]).ub = true ∧
    (St.run {} [.call, .make, .take 0 0, .drop 0, .await 0]).ub = true :=
  ⟨fun h => absurd (h [.call, .make, .take 0 0, .drop 0, .await 0]) (by simp [St.run, St.step,
    St.note, St.runs, St.renew, upd, St.clear, St.cancelled]), by rfl, by rfl⟩

/-- Even if nothing is used that is gone, a waiting operation is not told when another coroutine
has taken the source meanwhile. -/
theorem C120_lost_violated :
    ¬ ∀ (es : List Ev) (l1 l2 : List Act) (c g k : Nat) (ct : CT), (St.run {} es).ub = false →
      (St.run {} es).log = l1 ++ .emit g ct :: l2 → src c l2 = some g →
      waitsFor c l2 = some k → (filters c l2).2 ((filters c l2).1 ct) ≠ .none_ →
      (k, (filters c l2).2 ((filters c l2).1 ct)) ∈ (St.run {} es).got := by
  intro h
  have := h [.call, .call, .make, .take 0 0, .await 0, .take 1 0, .emit 0 all] []
    [.took 1 0, .await 0 0, .took 0 0, .made 0] 0 0 0 all rfl rfl rfl rfl
    (by simp [filters, Cst.enableTotal, all, CT.none_])
  exact absurd this (by simp [St.run, St.step, St.note, St.runs, St.renew, St.fire, upd, St.clear,
    St.cancelled, St.place, St.tell, CT.none_])

/-- The example of the documentation (doc/reference/detached.adoc:39-57), where the work of the
task is `n` operations before the one that is cancelled and `m` after it. `co_main` returns right
after it has emitted, and the signal is a variable of it. -/
def doc (n m : Nat) : List Ev :=
  [.call, .make, .take 0 0] ++ (List.replicate n [Ev.await 0, .opEnds 0]).flatten ++
    [.await 0, .emit 0 all, .drop 0, .opEnds 0] ++
    (List.replicate m [Ev.await 0, .opEnds 0]).flatten ++ [.ret 0]

/-- The operation is cancelled; the example uses the signal after `co_main` has returned exactly
if the task awaits anything after that operation. -/
theorem C120_doc (n m : Nat) :
    ((St.run {} (doc n m)).ub = true ↔ 0 < m) ∧
      ∃ k, (St.run {} (doc n m)).got = [(k, all)] := by
  have h0 : Ready (St.run {} [.call, .make, .take 0 0]) := by
    constructor <;> rfl
  have h1 := ready_rounds _ h0 n
  unfold doc
  rw [run_append, run_append, run_append, run_append]
  generalize St.run (St.run {} [.call, .make, .take 0 0]) _ = s at h1
  obtain ⟨h1, h2, h3, h4, h5, h6, h7, h8, h9, h10, h11⟩ := h1
  have hall : all ≠ CT.none_ := by simp [all, CT.none_]
  cases m with
  | zero =>
    simp [St.run, St.step, St.note, St.runs, St.fire, upd, St.clear,
      St.cancelled, St.place, St.tell, Cst.enableTotal, *]
  | succ m =>
    rw [List.replicate_succ, List.flatten_cons, run_append]
    have e : (St.run (s.run [.await 0, .emit 0 all, .drop 0, .opEnds 0])
        [.await 0, .opEnds 0]).ub = true ∧
        (St.run (s.run [.await 0, .emit 0 all, .drop 0, .opEnds 0])
        [.await 0, .opEnds 0]).got = [(s.nk, all)] := by
      simp [St.run, St.step, St.note, St.runs, St.fire, upd, St.clear,
        St.cancelled, St.place, St.tell, Cst.enableTotal, *]
    rw [run_ub _ e.1, run_ub _ e.1]
    exact ⟨⟨fun _ => Nat.succ_pos m, fun _ => e.1⟩, s.nk, e.2⟩

example : (St.run {} (doc 3 0)).ub = false ∧ (St.run {} (doc 0 1)).ub = true := by
  exact ⟨by rfl, by rfl⟩

end Cobalt.Src
