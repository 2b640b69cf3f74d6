import Verif.Nest.Late
/-! # Properties of nested `with`s -/
namespace Cobalt.Nest

/-- An argument can be lost exactly if a `with` comes after an operation in the same coroutine, or
after a `with` with an operation in it. -/
theorem C123_exact (p : Prog) : (∃ ins, Leaks (p.run false ins).tr) ↔ p.late false = true :=
  ⟨fun ⟨ins, h⟩ => leaks_late p false ins h, (late_leaks p).1⟩

/-- `with` in `with`, all of the operations in the inner one: this is safe. -/
def inner : Prog := .with_ 0 (.with_ 1 (.op (.op .done)) 2 .done) 1 .done
example : inner.late false = false := rfl
/-- one `with` after the other -/
example : (Prog.with_ 0 (.op .done) 0 (.with_ 1 .done 0 .done)).late false = true := rfl

/-- Nothing is lost unless an operation succeeds that was cancelled; then every argument is torn
down once, the last one first; and if it has not ended yet it can be completed like that. -/
theorem C123_lifo (p : Prog) (ins : List In) (h : p.late false = false ∨ Honest ins) :
    ¬ Leaks (p.run false ins).tr ∧ ((p.run false ins).out ≠ none → Bal (p.run false ins).tr) ∧
      ∃ w, Bal ((p.run false ins).tr ++ w) := by
  have hl : ¬ Leaks (p.run false ins).tr := by
    rcases h with h | h
    · intro hl
      rw [leaks_late p false ins hl] at h; cases h
    · exact (honest_run p ins h).1
  exact ⟨hl, bal_run p false ins hl⟩

/-- cancelled in the body, and again in the teardown -/
example : Honest [⟨true, some abt⟩, ⟨true, some abt⟩] := by
  intro i hi _
  simp at hi
  subst hi
  simp
example : (inner.run false [⟨true, some abt⟩, ⟨true, some abt⟩, ok]).tr =
    [.opened 0, .opened 1, .raise abt, .tear 1 (some abt), .raise abt, .torn 1, .tear 0 (some abt),
      .torn 0] := rfl

/-- The caller gets the first exception of all, if there is one. -/
theorem C123_first (p : Prog) (ins : List In) (e : Option Nat) (h : (p.run false ins).out = some e) :
    (raises (p.run false ins).tr).head? = e := first_run p false ins e h

example : (inner.run false [⟨false, some 7⟩, ⟨false, some 8⟩, ⟨false, some 9⟩]).out =
    some (some 7) := rfl

/-- It ends when all of its operations have. -/
theorem C123_ends (p : Prog) (ins : List In) (h : p.ops ≤ ins.length) :
    (p.run false ins).out ≠ none := (run_ends p false ins h).1

example : inner.ops = 5 := rfl

/-- A teardown is complete exactly if none of its operations fails, and it is not cancelled before
the last one. -/
theorem C123_whole (n : Nat) (ins : List In) : (runTear n false ins).out = some none ↔
    n ≤ ins.length ∧ (∀ j x, j < n → ins[j]? = some x → x.res = none) ∧
      ∀ j x, j + 1 < n → ins[j]? = some x → x.cancel = false := by
  simpa using tear_whole n false ins

/-- **C123**, in full: every argument of a `with` is torn down, completely if the operations of
its teardown do not fail by themselves, in the opposite order, and the first exception is passed on.
Missing: coroutines with a `with` after an operation, if the operation succeeds although it was
cancelled (`C123_violated`); teardowns that are cancelled (`C123_cut_violated`). -/
theorem C123_partial (p : Prog) (ins : List In) (h : p.late false = false ∨ Honest ins)
    (e : Option Nat) (ho : (p.run false ins).out = some e) :
    Bal (p.run false ins).tr ∧ (raises (p.run false ins).tr).head? = e :=
  ⟨(C123_lifo p ins h).2.1 (by rw [ho]; simp), C123_first p ins e ho⟩

/-- An operation that is complete when the cancellation arrives, then a `with`: the argument is
made, `await_transform` throws, and nobody tears the argument down or destroys it. -/
theorem C123_violated : ((Prog.op (.with_ 0 .done 1 .done)).run false [hit]).tr =
      [.opened 0, .leak 0, .raise abt] ∧
    ¬ ∃ w, Bal (((Prog.op (.with_ 0 .done 1 .done)).run false [hit]).tr ++ w) := by
  refine ⟨rfl, fun ⟨w, hw⟩ => ?_⟩
  exact hw.no_leak ⟨0, by simp [Prog.run, hit]⟩

/-- `co_await cobalt::with(co_await connect(argv[1]), &run_session, &teardown);`
(`doc/reference/with.adoc:40`): the connection can be lost whatever the session and the teardown
do. -/
theorem C123_doc_violated (i t : Nat) (b k : Prog) :
    ∃ ins, .leak i ∈ ((Prog.op (.with_ i b t k)).run false ins).tr :=
  ⟨[hit], by simp [Prog.run, hit]⟩

/-- A cancellation while the teardown waits: it is cut short, although its operations would have
succeeded. -/
theorem C123_cut_violated : ((Prog.with_ 0 (.op .done) 2 .done).run false [ok, hit, ok]).tr =
    [.opened 0, .tear 0 none, .raise abt, .torn 0] := rfl

end Cobalt.Nest
