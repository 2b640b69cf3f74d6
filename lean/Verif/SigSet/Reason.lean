import Verif.SigSet.Lemmas
namespace Cobalt.SigSet

/-- The wait with number `i` was told to stop: by its set or through its own slot. -/
def Stopped (es : List Ev) (i k : Nat) : Prop := Ev.cancel k ∈ es ∨ Ev.abort i ∈ es

structure Why (es : List Ev) (s : St) : Prop where
  now : ∀ (i : Nat) (w : Wait), s.waits[i]? = some w → w.stage = .posted .aborted → w.dropped = false → Stopped es i w.set
  then_ : ∀ k, (k, Out.aborted) ∈ s.log → ∃ (i : Nat) (w : Wait), s.waits[i]? = some w ∧ w.set = k ∧ Stopped es i k

theorem Stopped.mono {es : List Ev} {i k : Nat} (h : Stopped es i k) (e : Ev) : Stopped (es ++ [e]) i k :=
  h.imp (List.mem_append_left _) (List.mem_append_left _)

/-- Waits change, but not the sets they belong to. -/
theorem Why.of {es : List Ev} {s t : St} {e : Ev} (h : Why es s) (hl : t.log = s.log)
    (hs : ∀ (i : Nat) (w : Wait), s.waits[i]? = some w → ∃ v : Wait, t.waits[i]? = some v ∧ v.set = w.set)
    (hn : ∀ (i : Nat) (v : Wait), t.waits[i]? = some v → v.stage = .posted .aborted → v.dropped = false →
      (∃ w : Wait, s.waits[i]? = some w ∧ w.set = v.set ∧ w.stage = .posted .aborted ∧ w.dropped = false) ∨ Stopped (es ++ [e]) i v.set) :
    Why (es ++ [e]) t := by
  constructor
  · intro i v hi h1 h2
    rcases hn i v hi h1 h2 with ⟨w, h3, h4, h5, h6⟩ | h3
    · rw [← h4]; exact (h.now i w h3 h5 h6).mono e
    · exact h3
  · intro k hk
    rw [hl] at hk
    obtain ⟨i, w, h1, h2, h3⟩ := h.then_ k hk
    obtain ⟨v, h4, h5⟩ := hs i w h1
    exact ⟨i, v, h4, h5.trans h2, h3.mono e⟩

theorem Why.map {es : List Ev} {s t : St} {e : Ev} {f : Wait → Wait} (h : Why es s) (hl : t.log = s.log) (ht : t.waits = s.waits.map f)
    (hs : ∀ w, (f w).set = w.set)
    (hf : ∀ (i : Nat) (w : Wait), s.waits[i]? = some w → (f w).stage = .posted .aborted → (f w).dropped = false →
      (w.stage = .posted .aborted ∧ w.dropped = false) ∨ Stopped (es ++ [e]) i w.set) : Why (es ++ [e]) t := by
  refine h.of hl (fun i w hi => ⟨f w, by rw [ht, List.getElem?_map, hi]; rfl, hs w⟩) fun i v hi h1 h2 => ?_
  rw [ht, List.getElem?_map] at hi
  cases hw : s.waits[i]? with
  | none => rw [hw] at hi; cases hi
  | some w =>
    rw [hw] at hi
    simp at hi
    subst hi
    rcases hf i w hw h1 h2 with h3 | h3
    · exact .inl ⟨w, rfl, (hs w).symm, h3⟩
    · rw [hs]; exact .inr h3

theorem Why.set {es : List Ev} {s t : St} {e : Ev} {i : Nat} {w v : Wait} (h : Why es s) (hl : t.log = s.log)
    (hw : s.waits[i]? = some w) (ht : t.waits = s.waits.set i v) (hs : v.set = w.set)
    (hf : v.stage = .posted .aborted → v.dropped = false →
      (w.stage = .posted .aborted ∧ w.dropped = false) ∨ Stopped (es ++ [e]) i w.set) : Why (es ++ [e]) t := by
  have hlt : i < s.waits.length := (List.getElem?_eq_some_iff.1 hw).1
  refine h.of hl (fun j u hj => ?_) fun j u hj h1 h2 => ?_
  · by_cases hji : i = j
    · subst hji
      rw [hw] at hj; cases hj
      exact ⟨v, by rw [ht]; simp [hlt], hs⟩
    · exact ⟨u, by rw [ht, List.getElem?_set_ne hji]; exact hj, rfl⟩
  · rw [ht] at hj
    by_cases hji : i = j
    · subst hji
      simp [hlt] at hj
      subst hj
      rcases hf h1 h2 with h3 | h3
      · exact .inl ⟨w, hw, hs.symm, h3⟩
      · rw [hs]; exact .inr h3
    · rw [List.getElem?_set_ne hji] at hj
      exact .inl ⟨u, hj, rfl, h1, h2⟩

theorem Why.push {es : List Ev} {s t : St} {e : Ev} {v : Wait} (h : Why es s) (hl : t.log = s.log)
    (ht : t.waits = s.waits ++ [v]) (hv : v.stage ≠ .posted .aborted) : Why (es ++ [e]) t := by
  refine h.of hl (fun j u hj => ⟨u, ?_, rfl⟩) fun j u hj h1 h2 => .inl ⟨u, ?_, rfl, h1, h2⟩
  · rw [ht, List.getElem?_append_left (List.getElem?_eq_some_iff.1 hj).1]; exact hj
  · rw [ht] at hj
    by_cases hlt : j < s.waits.length
    · rw [List.getElem?_append_left hlt] at hj; exact hj
    · rw [List.getElem?_append_right (by omega)] at hj
      have := List.mem_of_getElem? hj
      rw [List.mem_singleton] at this
      subst this
      exact absurd h1 hv

theorem abort_eq (w : Wait) : w.abort = w ∨ w.stage = .queued := by
  unfold Wait.abort; split
  · rename_i h; exact .inr h
  · exact .inl rfl

theorem Why.act {es : List Ev} {s : St} (h : Why es s) (e : Ev) (hc : s.can e = true) : Why (es ++ [e]) (s.act e) := by
  have same : ∀ t : St, t.log = s.log → t.waits = s.waits → Why (es ++ [e]) t := fun t h1 h2 =>
    h.of h1 (fun i w hi => ⟨w, by rw [h2]; exact hi, rfl⟩) fun i v hi h3 h4 => .inl ⟨v, by rw [← h2]; exact hi, rfl, h3, h4⟩
  cases e with
  | add k n => exact same _ rfl rfl
  | remove k n => exact same _ rfl rfl
  | clear k => exact same _ rfl rfl
  | cancel k =>
    refine h.map (f := fun w => if w.set = k then w.abort else w) rfl rfl (fun w => ?_) fun i w hi h1 h2 => ?_
    · split
      · exact abort_set w
      · rfl
    · split at h1
      · rename_i hk; rw [hk]; exact .inr (.inl (by simp))
      · rename_i hk; rw [if_neg hk] at h2; exact .inl ⟨h1, h2⟩
  | signal n =>
    refine h.map (f := fun w => w.deliver n (s.regs w.set)) rfl rfl (fun w => deliver_set ..) fun i w hi h1 h2 => .inl ?_
    rw [deliver_dropped] at h2
    unfold Wait.deliver at h1
    split at h1
    · cases h1
    · exact ⟨h1, h2⟩
  | wait k =>
    dsimp only [St.act, St.wait]
    split
    · exact h.push rfl rfl (by simp)
    · exact h.push rfl rfl (by simp)
  | abort i =>
    dsimp only [St.act]
    split
    · rename_i w hw
      exact h.set rfl hw rfl (abort_set w) fun _ _ => .inr (.inr (by simp))
    · exact same _ rfl rfl
  | drop i =>
    dsimp only [St.act]
    split
    · rename_i w hw
      exact h.set rfl hw rfl (abort_set w) fun _ h2 => by cases h2
    · exact same _ rfl rfl
  | run i =>
    dsimp only [St.act, St.runWait]
    split
    · rename_i w hw
      split
      · rename_i o ho
        have hlt : i < s.waits.length := (List.getElem?_eq_some_iff.1 hw).1
        have h1 : Why (es ++ [.run i]) { s with waits := s.waits.set i { w with stage := .done } } :=
          h.set rfl hw rfl rfl fun h1 => by cases h1
        refine ⟨h1.now, fun k hk => ?_⟩
        simp only [St.finish] at hk ⊢
        by_cases hd : w.dropped = true
        · rw [if_pos hd] at hk; exact h1.then_ k hk
        · rw [if_neg hd] at hk
          rcases List.mem_append.1 hk with hk | hk
          · exact h1.then_ k hk
          · simp at hk
            obtain ⟨rfl, rfl⟩ := hk
            exact ⟨i, { w with stage := .done }, by simp [hlt], rfl, (h.now i w hw ho (by simpa using hd)).mono _⟩
      · exact same _ rfl rfl
    · exact same _ rfl rfl

theorem Why.run {es : List Ev} (hl : Legal {} es) : Why es (St.run es) := by
  induction es using snoc_ind with
  | h0 => exact ⟨fun i w h => (by cases h), fun k h => (by cases h)⟩
  | h1 es e ih =>
    obtain ⟨h1, hc⟩ := legal_snoc hl
    rw [run_snoc, step_can hc]
    exact (ih h1).act e hc

end Cobalt.SigSet
