import Verif.Pipe.Facts
/-! Property C95: a chain of coroutines connected by channels. -/
namespace Cobalt.Pipe

/-- **C95**, first part: nothing undefined happens and no assertion of a channel fails, whatever the executor, the
cancellations and `close` do. -/
theorem C95_safe (n : Nat) (cap : Nat → Nat) (es : List Ev) (k : Nat) (hk : k < n) :
    ((run n cap es).ch k).ub = false ∧ ((run n cap es).ch k).asserted = false :=
  ⟨((PI.run n cap es).link k hk).ci.j.ub, ((PI.run n cap es).link k hk).ci.j.noAss⟩

/-- **C95**, stage by stage: a coroutine has obtained the first ones of what the one before it has. -/
theorem C95_stage (n : Nat) (cap : Nat → Nat) (es : List Ev) (k : Nat) (hk : k < n) :
    (run n cap es).got (k + 1) <+: (run n cap es).got k := by
  have l := (PI.run n cap es).link k hk
  have h := l.delivered.1
  rw [l.gp, h]
  exact (List.take_prefix _ _).trans (List.prefix_append _ _)

/-- **C95**: what arrives at the end of the chain, and at every coroutine in it, are the first values that were made,
in order, each once. -/
theorem C95_in_order (n : Nat) (cap : Nat → Nat) (es : List Ev) (k : Nat) (hk : k ≤ n) :
    ∃ m, m ≤ ((run n cap es).got 0).length ∧ (run n cap es).got k = firstValues m := by
  have key : ∀ k, k ≤ n → (run n cap es).got k <+: (run n cap es).got 0 := by
    intro k
    induction k with
    | zero => intro _; exact List.prefix_refl _
    | succ k ih => intro h; exact (C95_stage n cap es k (by omega)).trans (ih (by omega))
  have h := key k hk
  rw [(PI.run n cap es).zero] at h
  obtain ⟨h1, h2⟩ := prefix_range h
  exact ⟨_, h2, by rw [firstValues_eq]; exact h1⟩

/-- **C95**: what a coroutine has and the next one has not is at most what the channel can hold, which is one value
for a channel without a buffer too, and one more. -/
theorem C95_backlog (n : Nat) (cap : Nat → Nat) (es : List Ev) (k : Nat) (hk : k < n) :
    ((run n cap es).got k).length ≤ ((run n cap es).got (k + 1)).length + max (cap k) 1 + 1 := by
  have l := (PI.run n cap es).link k hk
  have hc := run_cap n cap es k
  generalize (run n cap es).ch k = c at *
  have hd := l.delivered.2.1
  obtain ⟨hand, hh, hm, h3⟩ := l.ci.j.split
  have hb := l.ci.h.len
  have h0 : hand.length = 0 ∨ cap k = 0 := by
    cases hand with
    | nil => left; rfl
    | cons w ws =>
      obtain ⟨i, -, hw⟩ := (hm w).1 (List.mem_cons_self ..)
      right; rw [← hc]; exact l.ci.j.dirR i (by rw [hw]; simp)
  have ht : c.taken.length = (Chan.delivered c.log).length + c.buf.length + hand.length := by rw [← h3]; simp [Nat.add_assoc]
  have hg := congrArg List.length l.gp
  rw [List.length_append, l.len] at hg
  by_cases hp : ∃ v, (run n cap es).pos k = .has v
  · obtain ⟨v, hv⟩ := hp
    have h1 := l.taken_all (by rw [hv]; simp) (by rw [hv]; rfl)
    rw [h1, List.length_range] at ht
    have h2 : (pend ((run n cap es).pos k)).length = 1 := by rw [hv]; rfl
    omega
  · have h2 : (pend ((run n cap es).pos k)).length = 0 := by
      cases he : (run n cap es).pos k with
      | has v => exact absurd ⟨v, he⟩ hp
      | _ => rfl
    rcases l.taken with h1 | h1
    · rw [h1, List.length_range] at ht; omega
    · rw [h1.1, List.length_range] at ht; omega

/-- **C95**: the chain does not block itself: as long as no coroutine was ended by a failed operation, somebody has
something to do. -/
theorem C95_progress (n : Nat) (cap : Nat → Nat) (es : List Ev) (hn : 0 < n)
    (h : ∀ k, k ≤ n → (run n cap es).pos k ≠ .ended) : (run n cap es).busy n := by
  have hi := PI.run n cap es
  generalize run n cap es = s at *
  apply Classical.byContradiction
  intro hb
  simp only [St.busy, not_or, not_exists, not_and] at hb
  obtain ⟨hb1, hb2⟩ := hb
  have hpost : ∀ k, k < n → (s.ch k).posted = [] := fun k hk => by simpa using hb1 k hk
  have hpos : ∀ k, k ≤ n → (∃ i, s.pos k = .reading i) ∨ ∃ j, s.pos k = .writing j := by
    intro k hk
    cases hp : s.pos k with
    | between => exact absurd hp (hb2 k hk).1
    | has v => exact absurd hp ((hb2 k hk).2 v)
    | ended => exact absurd hp (h k hk)
    | reading i => exact .inl ⟨i, rfl⟩
    | writing j => exact .inr ⟨j, rfl⟩
  have key : ∀ k, k ≤ n → ∃ j, s.pos k = .writing j := by
    intro k
    induction k with
    | zero =>
      intro hk
      rcases hpos 0 hk with ⟨i, hp⟩ | hp
      · exact absurd hp (hi.first i)
      · exact hp
    | succ k ih =>
      intro hk
      obtain ⟨j, hj⟩ := ih (by omega)
      rcases hpos (k + 1) hk with ⟨i, hp⟩ | hp
      · have h1 := waitingR hi (by omega) (hpost k (by omega)) hp
        have h2 := waitingW hi (by omega) (hpost k (by omega)) hj
        rcases (hi.link k (by omega)).ci.h.excl with h3 | h3
        · rw [h3] at h1; cases h1
        · rw [h3] at h2; cases h2
      · exact hp
  obtain ⟨j, hj⟩ := key n (Nat.le_refl _)
  rcases hi.lst with h1 | h1
  · rw [hj] at h1; cases h1.1
  · omega

/-- **C95**: nothing is lost: when everybody waits for more, all that was made has arrived. -/
theorem C95_complete (n : Nat) (cap : Nat → Nat) (es : List Ev) (h : (run n cap es).drained n) (k : Nat)
    (hk : k ≤ n) : (run n cap es).got k = (run n cap es).got 0 := by
  have hi := PI.run n cap es
  generalize run n cap es = s at *
  obtain ⟨h1, h2, h3⟩ := h
  induction k with
  | zero => rfl
  | succ k ih =>
    rw [← ih (by omega)]
    have l := hi.link k (by omega)
    have hpk : s.pos k ≠ .ended ∧ wr (s.pos k) = none ∧ pend (s.pos k) = [] := by
      cases k with
      | zero => rw [h2]; exact ⟨by simp, rfl, rfl⟩
      | succ k =>
        obtain ⟨i, h4⟩ := h3 k (by omega)
        rw [h4]; exact ⟨by simp, rfl, rfl⟩
    obtain ⟨i, hr⟩ := h3 k (by omega)
    have hq := waitingR hi (by omega) (h1 k (by omega)) hr
    have hbuf := l.ci.j.rqb (fun h => by rw [h] at hq; cases hq)
    have ht := l.taken_all hpk.1 hpk.2.1
    have hf := l.ci.j.fifo0 (fun x hx => by
      rcases hx with hx | hx
      · have hxl : x < (s.ch k).nextR := by
          rcases Nat.lt_or_ge x (s.ch k).nextR with h4 | h4
          · exact h4
          · rw [l.ci.h.rnew x h4] at hx; cases hx
        rcases l.ci.allR x hxl with h4 | h4
        · rw [hr] at h4
          have : i = x := by simpa [rd] using h4.1
          subst this
          exact (l.ci.h.rlink _ hq).1
        · rw [hx] at h4; cases h4.2.1
      · cases hx)
    rw [hbuf, List.append_nil, ht] at hf
    rw [l.gp, hpk.2.2, List.append_nil, l.got', hf, map_range_getD _ _ (Nat.le_of_eq l.len.symm), ← l.len, List.take_length]

/-- Two channels, the first without a buffer, the second with room for one value; the consumer begins. -/
def sched : List Ev :=
  [.go 2 true, .go 1 true, .go 0 true, .go 0 true, .go 1 true, .chan 0 (.run 0), .chan 1 (.run 0),
   .go 0 true, .go 0 true, .go 2 true, .go 1 true, .chan 0 (.run 0), .go 1 true, .go 1 true]

def caps : Nat → Nat := fun k => k

example : (run 2 caps sched).got 2 = [0] ∧ (run 2 caps sched).got 1 = [0, 1] ∧ (run 2 caps sched).got 0 = [0, 1] := by
  decide

/-- … goes on until everything has arrived. -/
def sched' : List Ev := sched ++ [.chan 1 (.run 0), .go 2 true]

example : (run 2 caps sched').drained 2 ∧ (run 2 caps sched').got 2 = [0, 1] := by
  refine ⟨⟨?_, by decide, ?_⟩, by decide⟩
  · intro k hk
    match k, hk with
    | 0, _ => decide
    | 1, _ => decide
  · intro k hk
    match k, hk with
    | 0, _ => exact ⟨2, by decide⟩
    | 1, _ => exact ⟨2, by decide⟩

/-- Backlogs as large as the bound allows: a channel without a buffer, … -/
example : ((run 1 caps [.go 1 true, .go 0 true, .go 0 true, .chan 0 (.run 0), .go 0 true, .go 0 true, .go 1 true,
    .go 0 true]).got 0).length = 3 ∧
    (run 1 caps [.go 1 true, .go 0 true, .go 0 true, .chan 0 (.run 0), .go 0 true, .go 0 true, .go 1 true,
    .go 0 true]).got 1 = [0] := by decide

/-- … and one with room for three values. -/
example : ((run 1 (fun _ => 3) [.go 0 true, .go 0 true, .go 0 true, .go 0 true, .go 0 true, .go 0 true,
    .go 0 true, .go 0 true]).got 0).length = 4 := by decide

end Cobalt.Pipe
