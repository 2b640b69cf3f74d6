import Verif.Sig.Track
/-!
# Awaiting a signal (C104)
-/
namespace Cobalt.Sig

/-- **C104, exactly**: nothing that is gone is touched and no coroutine that waits is destroyed by an emission if and
only if every coroutine that the signal resumes is suspended again before it leaves the expression of the `co_await`. -/
theorem C104_safe_exact (es : List Ev) : Safe es ↔ ¬ Beyond es := by
  rcases reach es with ⟨h1, h2, h3, _⟩ | ⟨h1, h2⟩
  · exact ⟨fun _ => h1, fun _ => ⟨h2.ub, h3.gone⟩⟩
  · refine ⟨fun hs => ?_, fun hn => absurd h1 hn⟩
    rcases h2 with h2 | ⟨w, h2⟩
    · rw [hs.1] at h2
      cases h2
    · exact absurd h2 (hs.2 w)

/-- Two coroutines, three awaits, two emissions; one coroutine is resumed by something else between the two and awaits the
signal again at the same place. -/
abbrev held : List Ev := [.go 0 (.again 0), .go 1 (.again 0), .emit, .call, .act .hold, .call, .act .hold, .call,
  .go 0 (.again 0), .emit, .call, .act .hold, .call]

example : (exec held).log = [.wait 0, .wait 1, .emit 0, .got 0 0, .got 1 0, .wait 2, .emit 1, .got 2 1] ∧
    (exec held).ub = false := by decide

/-- **C104 is violated** by the example itself: `co_return co_await sig` ends in the handler, and the slot is destroyed
after that. -/
theorem C104_example_violated : ∃ es, es = [.go 0 (.again 0), .emit, .call, .act .finish] ∧ (exec es).ub = true ∧
    (exec es).log = [.wait 0, .emit 0, .got 0 0] := ⟨_, rfl, by decide, by decide⟩

/-- **C104 is violated** by a loop `for (;;) co_await sig`: the first emission destroys the coroutine, and the second calls
a slot whose awaitable is gone. -/
theorem C104_loop_violated : ∃ es, es = [.go 0 (.again 0), .emit, .call, .act (.again 0), .call] ∧
    (exec es).ub = false ∧ Obs.gone 0 ∈ (exec es).log ∧ ((exec es).co 0).alive = false ∧
    (exec (es ++ [.emit, .call])).ub = true :=
  ⟨_, rfl, by decide, by decide, by decide, by decide⟩

/-- **C104**, every await in a safe run: it returns at most once, and what it returns is the value of an emission that began
after it did. Missing: that every run is safe (`C104_safe_exact`). -/
theorem C104_honest_partial (es : List Ev) (h : Safe es) : Honest (exec es).log := by
  rcases reach es with ⟨_, _, h3, _⟩ | ⟨h1, _⟩
  · exact fun w n hn => (h3.got w n hn).2
  · exact absurd h1 ((C104_safe_exact es).1 h)

/-- **C104**, every emission in a safe run: when it has ended, whoever waited when it began has been resumed. Missing: that
every run is safe. -/
theorem C104_served_partial (es : List Ev) (h : Safe es) (hs : (exec es).stack = []) : Served (exec es).log := by
  rcases reach es with ⟨_, h2, h3, _⟩ | ⟨h1, _⟩
  · intro w n hb
    have hw := (h3.wait w).1 hb.left
    rcases h3.all w hw with hc | hc
    · obtain ⟨f, hf, _⟩ := h3.comp w hc n hb
      simp [hs] at hf
    · exact hc
  · exact absurd h1 ((C104_safe_exact es).1 h)

example : Safe held ∧ (exec held).stack = [] := by
  refine ⟨⟨by decide, fun w hw => ?_⟩, by decide⟩
  have : (exec held).log = [.wait 0, .wait 1, .emit 0, .got 0 0, .got 1 0, .wait 2, .emit 1, .got 2 1] := by decide
  rw [this] at hw
  simp at hw

/-- **C104, exactly**, in a safe run: the value an await returns is the one of the first emission after it began if and only
if no second emission began, from a coroutine that the first had resumed, before the first had reached it. -/
theorem C104_first_exact (es : List Ev) (h : Safe es) (w n : Nat) (hg : Obs.got w n ∈ (exec es).log) :
    First (exec es).log w ↔ ¬ Overtaken es w := by
  rcases reach es with ⟨_, _, h3, h4⟩ | ⟨h1, _⟩
  · rw [h4.got w n hg]
    constructor
    · rintro hf ⟨m, hm, hlt⟩
      have := hf n m hg hm
      omega
    · intro hn n' m hg' hm
      obtain rfl := (h3.got w n hg).2.2 n' hg'
      exact Nat.le_of_not_lt fun hlt => hn ⟨m, hm, hlt⟩
  · exact absurd h1 ((C104_safe_exact es).1 h)

/-- A coroutine resumed by the first emission emits as well, and the second coroutine gets that value. -/
abbrev nested : List Ev := [.go 0 (.again 0), .go 1 (.again 0), .emit, .call, .emit, .call, .act .hold, .call, .act .hold,
  .call, .call]

/-- **C104 is violated** although everything is safe: the value of an emission can be missed by a coroutine that
waited for it. -/
theorem C104_overtaken_violated : (exec nested).ub = false ∧ (exec nested).stack = [] ∧
    (exec nested).log = [.wait 0, .wait 1, .emit 0, .got 0 0, .emit 1, .got 1 1] ∧ ¬ First (exec nested).log 1 := by
  have h : (exec nested).log = [.wait 0, .wait 1, .emit 0, .got 0 0, .emit 1, .got 1 1] := by decide
  refine ⟨by decide, by decide, h, fun hf => ?_⟩
  rw [h] at hf
  have := hf 1 0 (by decide) (by decide)
  omega

/-- **C104**: who waits when the signal is destroyed is destroyed, and nothing else is touched: destroying the signal is
fine in every state a safe run leads to. -/
theorem C104_kill (es : List Ev) (h : Safe es) (hk : (exec es).ok .kill = true) :
    Safe (es ++ [.kill]) ∧ ∀ i, ((exec (es ++ [.kill])).co i).alive =
      (((exec es).co i).alive && !((exec es).conn.any fun w => ((exec es).slot w).co == i)) := by
  rcases reach es with ⟨h1, h2, h3, _⟩ | ⟨h1, _⟩
  · refine ⟨(C104_safe_exact _).2 fun hb => ?_, fun i => ?_⟩
    · rcases beyond_snoc.1 hb with hb | ⟨a, ha, _⟩
      · exact h1 hb
      · cases ha
    · rw [exec_snoc, h2.kill_step hk]
      show (killCo _ _ _ i).alive = _
      unfold killCo
      split <;> simp_all
  · exact absurd h1 ((C104_safe_exact es).1 h)

example : (exec [.go 0 (.again 0), .go 1 .hold]).ok .kill = true ∧
    (exec [.go 0 (.again 0), .go 1 .hold, .kill]).log = [.wait 0, .killed, .dropped 0] := by decide

/-- A coroutine that has ended does nothing more, whatever it is told to do. -/
theorem C104_ended (es : List Ev) (i : Nat) (a : Act) (h : (exec es).ok (.go i .finish) = true) :
    exec (es ++ [.go i .finish] ++ [.go i a]) = exec (es ++ [.go i .finish]) := by
  rw [exec_snoc, exec_snoc]
  by_cases hu : (exec es).ub = true
  · simp [St.step, hu]
  · have hs : (exec es).step (.go i .finish) = (exec es).doAct i .finish := by
      unfold St.step
      rw [h]
      simp [hu]
    have hk : ((exec es).doAct i .finish).ok (.go i a) = false := by
      simp [St.ok, St.doAct, upd]
    rw [hs]
    unfold St.step
    rw [hk]
    simp

example : (exec []).ok (.go 0 .finish) = true ∧ exec [.go 0 (.again 0)] ≠ exec [] := by
  refine ⟨rfl, fun h => ?_⟩
  have := congrArg St.log h
  revert this
  decide

end Cobalt.Sig
