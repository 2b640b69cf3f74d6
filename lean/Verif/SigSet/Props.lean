import Verif.SigSet.Order
import Verif.SigSet.Reason
/-!
# C132: signals are not lost

Every signal that comes to a set is told to one coroutine that waits for the set, now or when one waits next, in the order the signals came.
-/
namespace Cobalt.SigSet

/-- **C132** -/
def C132 : Prop := ∀ es, Legal {} es → Fair es ∧ ∀ k, Alone k es → InOrder k es

/-! ## What goes wrong -/

/-- The signal comes, but before the handler has run, a timer wins the race. -/
def raced : List Ev := [.add 0 2, .wait 0, .signal 2, .drop 0, .run 0]

theorem raced_legal : Legal {} raced := by decide

/-- **C132 is violated**: a race that something else wins loses the signal. -/
theorem C132_violated : ¬ C132 := by
  intro h
  have := (h raced raced_legal).1 raced (List.prefix_refl _) 0 2
  revert this
  decide

/-- Nobody is told of it, and the next wait does not get it. -/
example : (St.run (raced ++ [.wait 0])).log = [] ∧ came 0 raced = [2] ∧
    (St.run (raced ++ [.wait 0])).waits.getLast? = some { set := 0 } := by decide

/-- Two coroutines that wait are both told of one signal; if they begin to wait afterwards, only the first one is. -/
theorem C132_twice_violated :
    (∃ es, Legal {} es ∧ came 0 es = [2] ∧ told 0 (St.run es) = [2, 2]) ∧
    ∃ es, Legal {} es ∧ came 0 es = [2] ∧ told 0 (St.run es) = [2] ∧ (St.run es).waits.any (Wait.queuedAt 0) = true :=
  ⟨⟨[.add 0 2, .wait 0, .wait 0, .signal 2, .run 0, .run 1], by decide, by decide, by decide⟩,
    [.add 0 2, .signal 2, .wait 0, .wait 0, .run 0], by decide, by decide, by decide, by decide⟩

/-! ## What holds -/

/-- **C132, exactly**: no signal is lost or told twice if and only if none of the events of `Trouble` happens. -/
theorem C132_exact (es : List Ev) (hl : Legal {} es) : Fair es ↔ ∀ p e q, es = p ++ e :: q → ¬ Trouble (St.run p) e := by
  induction es using snoc_ind with
  | h0 =>
    refine ⟨fun _ p e q h => ?_, fun _ p hp => ?_⟩
    · have := congrArg List.length h; simp at this
    · rw [List.prefix_nil.1 hp]
      intro k n
      rfl
  | h1 es e ih =>
    have hl' := (legal_snoc hl).1
    constructor
    · intro h
      have hf : Fair es := fun p hp => h p (hp.trans (List.prefix_append ..))
      have hstep := (exact_step hl (hf es (List.prefix_refl _))).1 (h _ (List.prefix_refl _))
      intro p e' q he
      rcases List.eq_nil_or_concat q with rfl | ⟨q', x, rfl⟩
      · obtain ⟨h4, h5⟩ := List.append_inj' he rfl
        subst h4; cases h5
        exact hstep
      · rw [List.concat_eq_append, ← List.cons_append, ← List.append_assoc] at he
        obtain ⟨h4, -⟩ := List.append_inj' he rfl
        exact (ih hl').1 hf p e' q' h4
    · intro h
      have hf : Fair es := (ih hl').2 fun p e' q he => h p e' (q ++ [e]) (by rw [he]; simp)
      intro p hp
      rcases List.prefix_concat_iff.1 hp with rfl | hp
      · exact (exact_step hl (hf es (List.prefix_refl _))).2 (h es e [] rfl)
      · exact hf p hp

/-- **C132, for one coroutine that races nothing** and removes nothing from its sets: every signal is told once. -/
theorem C132_partial (es : List Ev) (hl : Legal {} es) (ha : ∀ k, Alone k es)
    (hn : ∀ e ∈ es, (∀ i, e ≠ .drop i) ∧ (∀ k n, e ≠ .remove k n) ∧ ∀ k, e ≠ .clear k) : Fair es := by
  rw [C132_exact es hl]
  rintro p e q rfl ht
  have hp := (legal_append.1 hl).1
  have hne := hn e (by simp)
  cases e with
  | signal n =>
    obtain ⟨k, -, h2⟩ := ht
    have h3 := Alone.solo hp fun p' q' h => ha k p' (q' ++ .signal n :: q) (by rw [h]; simp)
    exact absurd h2 (by have := h3.count; omega)
  | drop i => exact hne.1 i rfl
  | remove k n => exact hne.2.1 k n rfl
  | clear k => exact hne.2.2 k rfl
  | _ => exact ht

theorem alone_iff (k : Nat) (es : List Ev) (h : alone k es = true) : Alone k es := by
  rintro p q rfl w hw hk
  have h1 := (List.all_eq_true.1 h) p.length (by simp)
  simp at h1
  rcases h1 w hw with h2 | h2
  · exact absurd hk h2
  · exact h2

/-- A loop that waits for `SIGINT` and `SIGTERM`, with a signal that comes while it is busy. -/
def loop : List Ev := [.add 0 2, .add 0 15, .wait 0, .signal 15, .run 0, .signal 2, .signal 2, .wait 0, .run 1, .wait 0, .run 2, .wait 0]

example : Legal {} loop ∧ (∀ k, Alone k loop) ∧ told 0 (St.run loop) = [15, 2, 2] ∧ came 0 loop = [15, 2, 2] := by
  refine ⟨by decide, fun k => ?_, by decide, by decide⟩
  by_cases h : k = 0
  · subst h; exact alone_iff 0 _ (by decide)
  · intro p q hp
    have : Ev.wait k ∈ loop := by rw [hp]; simp
    simp [loop, h] at this

/-- A coroutine that is busy while signals come is told of the one with the lowest number first. -/
theorem C132_order_violated : ∃ es, Legal {} es ∧ Fair es ∧ Alone 0 es ∧ ¬ InOrder 0 es := by
  have ha : Alone 0 [.add 0 2, .add 0 15, .signal 15, .signal 2, .wait 0] := alone_iff 0 _ (by decide)
  refine ⟨[.add 0 2, .add 0 15, .signal 15, .signal 2, .wait 0], by decide, ?_, ha, ?_⟩
  · refine C132_partial _ (by decide) (fun k => ?_) (by simp)
    by_cases h : k = 0
    · subst h; exact ha
    · intro p q hp
      have : Ev.wait k ∈ [Ev.add 0 2, .add 0 15, .signal 15, .signal 2, .wait 0] := by rw [hp]; simp
      simp [h] at this
  · intro h
    have := h _ (List.prefix_refl _)
    revert this
    decide

/-- **The order, exactly**: with one coroutine that waits, signals are told in the order they came if and only if, whenever it begins to
wait, the signal that came first has the lowest number. -/
theorem C132_order_exact (k : Nat) (es : List Ev) (hl : Legal {} es) (hf : Fair es) (ha : Alone k es) :
    InOrder k es ↔ ∀ p q, es = p ++ .wait k :: q → ∀ n r, untold k p = n :: r → ∀ m ∈ r, n ≤ m := by
  have ht := (C132_exact es hl).1 hf
  clear hf
  suffices h : (InOrder k es ↔ ∀ p q, es = p ++ .wait k :: q → ∀ n r, untold k p = n :: r → ∀ m ∈ r, n ≤ m) ∧
      (InOrder k es → Sorted k es (St.run es)) from h.1
  induction es using snoc_ind with
  | h0 =>
    refine ⟨⟨fun _ p q h => ?_, fun _ p hp => ?_⟩, fun _ => ⟨.inl fun w hw => (by cases hw), [], rfl, fun _ => rfl⟩⟩
    · have := congrArg List.length h; simp at this
    · rw [List.prefix_nil.1 hp]
      exact List.prefix_refl _
  | h1 es e ih =>
    obtain ⟨hl', hc⟩ := legal_snoc hl
    obtain ⟨ih1, ih2⟩ := ih hl' (fun p q h => ha p (q ++ [e]) (by rw [h]; simp))
      (fun p e' q h => ht p e' (q ++ [e]) (by rw [h]; simp))
    have hw := WF.run hl'
    have hsub : InOrder k (es ++ [e]) ↔ InOrder k es ∧
        (told k ((St.run es).act e) ++ way k ((St.run es).act e)) <+: came k (es ++ [e]) := by
      have hr : St.run (es ++ [e]) = (St.run es).act e := by rw [run_snoc, step_can hc]
      constructor
      · intro h
        refine ⟨fun p hp => h p (hp.trans (List.prefix_append ..)), ?_⟩
        rw [← hr]
        exact h _ (List.prefix_refl _)
      · rintro ⟨h1, h2⟩ p hp
        rcases List.prefix_concat_iff.1 hp with rfl | hp
        · rw [hr]; exact h2
        · exact h1 p hp
    have hall : (∀ p q, es ++ [e] = p ++ .wait k :: q → ∀ n r, untold k p = n :: r → ∀ m ∈ r, n ≤ m) ↔
        (∀ p q, es = p ++ .wait k :: q → ∀ n r, untold k p = n :: r → ∀ m ∈ r, n ≤ m) ∧
        (e = .wait k → ∀ n r, untold k es = n :: r → ∀ m ∈ r, n ≤ m) := by
      constructor
      · intro h
        exact ⟨fun p q he => h p (q ++ [e]) (by rw [he]; simp), fun he => h es [] (by rw [he])⟩
      · rintro ⟨h1, h2⟩ p q he
        rcases List.eq_nil_or_concat q with rfl | ⟨q', x, rfl⟩
        · obtain ⟨h4, h5⟩ := List.append_inj' he rfl
          subst h4; cases h5
          exact h2 rfl
        · rw [List.concat_eq_append, ← List.cons_append, ← List.append_assoc] at he
          obtain ⟨h4, -⟩ := List.append_inj' he rfl
          exact h1 p q' h4
    rw [hsub, hall, run_snoc, step_can hc]
    by_cases he : e = .wait k
    · subst he
      have ha' := ha es [] rfl
      constructor
      · constructor
        · rintro ⟨h1, h2⟩
          exact ⟨ih1.1 h1, fun _ => ((ih2 h1).wait hw ha').1 h2⟩
        · rintro ⟨h1, h2⟩
          have h3 := ih1.2 h1
          exact ⟨h3, (((ih2 h3).wait hw ha').2 (h2 rfl)).prefix⟩
      · rintro ⟨h1, h2⟩
        exact ((ih2 h1).wait hw ha').2 (((ih2 h1).wait hw ha').1 h2)
    · have hkeep : InOrder k es → Sorted k (es ++ [e]) ((St.run es).act e) := fun h =>
        (ih2 h).act hw (ht es e [] rfl) he
      refine ⟨⟨fun h => ⟨ih1.1 h.1, fun h1 => absurd h1 he⟩, fun h => ?_⟩, fun h => hkeep h.1⟩
      have h3 := ih1.2 h.1
      exact ⟨h3, (hkeep h3).prefix⟩

/-- **Nobody sleeps**: if a coroutine waits for a set, every signal that came has been told or is on its way to somebody. -/
theorem C132_awake (es : List Ev) (hl : Legal {} es) (hf : Fair es) (k : Nat) (w : Wait) (hw : w ∈ (St.run es).waits) (hk : w.set = k)
    (hq : w.stage = .queued) (n : Nat) :
    (came k es).count n = (told k (St.run es)).count n + (St.run es).waits.countP (Wait.brings k n) := by
  have h1 := hf es (List.prefix_refl _) k n
  have h2 : (St.run es).count k n = 0 := Classical.byContradiction fun h2 => (WF.run hl).awake k n h2 w hw hk hq
  rw [h1, kept, h2, Nat.zero_add]

/-- **A signal resumes**: when a signal of the set comes, every wait in the queue completes with it. -/
theorem C132_signal (es : List Ev) (hl : Legal {} es) (n i : Nat) (w : Wait) (hi : (St.run es).waits[i]? = some w)
    (hq : w.stage = .queued) (hs : inSet w.set n es = true) :
    (St.run (es ++ [.signal n])).waits[i]? = some { w with stage := .posted (.sig n) } ∧
    (St.run (es ++ [.signal n, .run i])).log = (St.run es).log ++ [(w.set, .sig n)] := by
  have h1 := ((WF.run hl).regs w.set n).2 hs
  have h2 : (St.run (es ++ [.signal n])).waits[i]? = some { w with stage := .posted (.sig n) } := by
    rw [run_snoc, step_can rfl]
    simp [St.act, St.signal, hi, Wait.deliver, hq, h1]
  refine ⟨h2, ?_⟩
  have h3 : es ++ [.signal n, .run i] = (es ++ [.signal n]) ++ [.run i] := by simp
  have h4 : w.dropped = false := by
    cases hd : w.dropped with
    | false => rfl
    | true => exact absurd hq ((WF.run hl).dropped w (List.mem_of_getElem? hi) hd)
  rw [h3, run_snoc, step_can (by simp [St.can, h2, St.isPosted])]
  simp only [St.act, St.runWait, h2, St.finish, h4]
  rw [run_snoc, step_can rfl]
  simp [St.act, St.signal]

/-- Sets do not share signals: with the set of `co_main` (0) and one of the coroutine (1), one `SIGINT` completes both waits.
So the coroutine is told, and cancelled by `co_main` as well. -/
theorem C132_main : Legal {} [.add 0 2, .add 0 15, .wait 0, .add 1 2, .wait 1, .signal 2, .run 1, .run 0] ∧
    (St.run [.add 0 2, .add 0 15, .wait 0, .add 1 2, .wait 1, .signal 2, .run 1, .run 0]).log = [(1, .sig 2), (0, .sig 2)] := by
  decide

example : inSet 1 2 [.add 0 2, .add 0 15, .wait 0, .add 1 2, .wait 1] = true ∧
    (St.run [.add 0 2, .add 0 15, .wait 0, .add 1 2, .wait 1]).waits[1]? = some { set := 1 } := by decide

/-- **Cancelling**: after `cancel` no wait of the set is in the queue; a wait that a signal has come to keeps it, and the waits of
other sets stay as they are. -/
theorem C132_cancel (es : List Ev) (k i : Nat) (w : Wait) (hi : (St.run es).waits[i]? = some w) :
    (St.run (es ++ [.cancel k])).waits[i]? =
      some { w with stage := if w.set = k ∧ w.stage = .queued then .posted .aborted else w.stage } := by
  rw [run_snoc, step_can rfl]
  simp only [St.act, List.getElem?_map, hi, Option.map_some]
  by_cases hk : w.set = k
  · rw [if_pos hk]
    unfold Wait.abort
    split
    · rename_i h; simp [h, hk]
    · rename_i h; rw [if_neg fun h1 => h h1.2]
  · rw [if_neg hk, if_neg fun h1 => hk h1.1]

/-- The slot of a wait cancels this wait only. -/
theorem C132_slot (es : List Ev) (i j : Nat) (w : Wait) (hj : (St.run es).waits[j]? = some w) :
    (St.run (es ++ [.abort i])).waits[j]? =
      some { w with stage := if i = j ∧ w.stage = .queued then .posted .aborted else w.stage } := by
  rw [run_snoc, step_can rfl]
  have hlt : j < (St.run es).waits.length := (List.getElem?_eq_some_iff.1 hj).1
  by_cases hij : i = j
  · subst hij
    simp only [St.act, hj]
    rw [List.getElem?_set_self hlt]
    unfold Wait.abort
    split
    · rename_i h; simp [h]
    · rename_i h; rw [if_neg fun h1 => h h1.2]
  · rw [if_neg fun h1 => hij h1.1]
    simp only [St.act]
    split
    · rw [List.getElem?_set_ne hij]; exact hj
    · exact hj

/-- **Nobody is told to stop without reason**: a wait that ends with an error was cancelled, by its set or through its slot. -/
theorem C132_reason (es : List Ev) (hl : Legal {} es) (k : Nat) (h : (k, Out.aborted) ∈ (St.run es).log) :
    Ev.cancel k ∈ es ∨ ∃ i w, (St.run es).waits[i]? = some w ∧ w.set = k ∧ Ev.abort i ∈ es := by
  obtain ⟨i, w, h1, h2, h3 | h3⟩ := (Why.run hl).then_ k h
  · exact .inl h3
  · exact .inr ⟨i, w, h1, h2, h3⟩

-- the signal comes first: `cancel` does not take it away
example : (St.run [.add 0 2, .wait 0, .signal 2, .cancel 0, .run 0]).log = [(0, .sig 2)] ∧
    (St.run [.add 0 2, .wait 0, .cancel 0, .signal 2, .run 0, .wait 0, .run 1]).log = [(0, .aborted), (0, .sig 2)] := by decide

end Cobalt.SigSet
