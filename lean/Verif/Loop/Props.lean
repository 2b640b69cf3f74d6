import Verif.Loop.Rounds
/-!
# Property C119: a consumer that reads while the channel is open gets everything
-/
namespace Cobalt.Loop

/-- **C119** for the example: the channel has no buffer. Whatever the number of values, the consumer gets all of them, in
order, and leaves its loop without an exception. -/
theorem C119_example (n : Nat) : Ends 0 n false .finished (List.range n) :=
  (Gets.noBuffer.1 rfl).ends (Or.inl rfl)

-- The example itself: four values.
example : (run 0 4 false 18).turn = .finished ∧ (run 0 4 false 18).seen = [0, 1, 2, 3] := by decide

/-- **C119** exactly: the consumer gets the first `gets cap n` of the `n` values, and ends without an exception. If the
channel has a buffer it gets none if they all fit into the buffer; else one buffer for each round of the producer, and the one
that woke it. -/
theorem C119_exact (cap n : Nat) : Ends cap n false .finished (List.range (gets cap n)) := by
  unfold gets
  by_cases h0 : cap = 0
  · subst h0; rw [if_pos rfl]; exact C119_example n
  · rw [if_neg h0]
    by_cases h1 : n ≤ cap
    · rw [if_pos h1]; exact ((Gets.short h1).1 rfl).ends (Or.inl rfl)
    · rw [if_neg h1]
      have hpos : 0 < cap := by omega
      have hd := Nat.div_add_mod (n - 1) cap
      have hm := Nat.mod_lt (n - 1) hpos
      have hq : 1 ≤ (n - 1) / cap := (Nat.one_le_div_iff hpos).2 (by omega)
      obtain ⟨m, hm'⟩ : ∃ m, (n - 1) / cap = m + 1 := ⟨(n - 1) / cap - 1, by omega⟩
      rw [hm', Nat.mul_comm] at hd ⊢
      obtain ⟨i, g⟩ := Gets.rounds (n := n) (d := false) hpos m (by omega)
      have h2 : n ≤ (m + 1 + 1) * cap := by rw [Nat.succ_mul]; omega
      exact ((g.last (by omega) h2).1 rfl).ends (Or.inl rfl)

-- Six values through a buffer of three; five that fit into the buffer; seven through a buffer of three.
example : gets 3 6 = 4 ∧ (run 3 6 false 40).seen = [0, 1, 2, 3] ∧ (run 3 6 false 40).turn = .finished ∧
    gets 5 5 = 0 ∧ gets 3 7 = 7 := by decide

/-- **C119** when it holds: nothing is lost exactly if the channel has no buffer, nothing is written, or the number of
values is one more than a positive multiple of the limit. -/
theorem C119_when (cap n : Nat) :
    Ends cap n false .finished (List.range n) ↔ cap = 0 ∨ n = 0 ∨ (cap < n ∧ cap ∣ n - 1) := by
  have key : Ends cap n false .finished (List.range n) ↔ gets cap n = n := by
    constructor
    · intro ⟨j, h⟩
      obtain ⟨j', h'⟩ := C119_exact cap n
      have e1 := (h (j + j') (by omega)).2.1
      have e2 := (h' (j + j') (by omega)).2.1
      rw [e1] at e2
      have := congrArg List.length e2
      simpa using this.symm
    · intro h
      have := C119_exact cap n
      rwa [h] at this
  rw [key]
  unfold gets
  by_cases h0 : cap = 0
  · simp [h0]
  · by_cases h1 : n ≤ cap
    · simp only [h0, h1, if_false, if_true, false_or]
      constructor
      · intro h; exact Or.inl h.symm
      · rintro (h | h)
        · exact h.symm
        · omega
    · simp only [h0, h1, if_false, false_or]
      have hd := Nat.div_add_mod (n - 1) cap
      constructor
      · intro h
        exact Or.inr ⟨by omega, Nat.dvd_of_mod_eq_zero (by omega)⟩
      · rintro (h | ⟨-, h⟩)
        · omega
        · have := Nat.mod_eq_zero_of_dvd h
          omega

example : 2 < 5 ∧ 2 ∣ 5 - 1 := by decide

/-- **C119 fails**: the four values of the example through a channel with a buffer of two. The last one is lost, although its
write has succeeded. With a buffer of four all are lost. -/
theorem C119_violated : Ends 2 4 false .finished [0, 1, 2] ∧ Ends 4 4 false .finished [] :=
  ⟨C119_exact 2 4, C119_exact 4 4⟩

/-- **C119**, what holds for every limit: a consumer that does not ask whether the channel is open but reads until a read
throws gets all values, in order. Missing: the loop of the documentation, and an end without an exception. -/
theorem C119_partial (cap n : Nat) : Ends cap n true .thrown (List.range n) := by
  by_cases h0 : cap = 0
  · subst h0; exact (Gets.noBuffer.2 rfl).ends (Or.inr rfl)
  · by_cases h1 : n ≤ cap
    · exact ((Gets.short h1).2 rfl).ends (Or.inr rfl)
    · have hpos : 0 < cap := by omega
      have hd := Nat.div_add_mod (n - 1) cap
      have hm := Nat.mod_lt (n - 1) hpos
      have hq : 1 ≤ (n - 1) / cap := (Nat.one_le_div_iff hpos).2 (by omega)
      obtain ⟨m, hm'⟩ : ∃ m, (n - 1) / cap = m + 1 := ⟨(n - 1) / cap - 1, by omega⟩
      rw [hm', Nat.mul_comm] at hd
      obtain ⟨i, g⟩ := Gets.rounds (n := n) (d := true) hpos m (by omega)
      have h2 : n ≤ (m + 1 + 1) * cap := by rw [Nat.succ_mul]; omega
      exact ((g.last (by omega) h2).2 rfl).ends (Or.inr rfl)

example : (run 2 4 true 30).seen = [0, 1, 2, 3] ∧ (run 2 4 true 30).turn = .thrown := by decide

end Cobalt.Loop
