import Verif.Hub.Ends
/-! # C116: the hub of the ticker example -/
namespace Cobalt.Hub
open Net (Act Res At)

/-- No operation on a channel is undefined and no assertion fails. -/
theorem C116_safe (cap : Nat) (es : List Ev) (c : Nat) :
    ((run cap es).net.ch c).ub = false ∧ ((run cap es).net.ch c).asserted = false := by
  have h := HI.run cap es
  obtain ⟨ms, hm⟩ := h.sim (run cap es).did fun _ => List.prefix_refl _
  have := Net.C110_safe (route (run cap es).did) h.ok.proper (fun _ => cap) ms c
  rwa [hm] at this

/-- A session gets updates since its subscription only, all of them from the first on, in order and each once. -/
theorem C116_stream (cap : Nat) (es : List Ev) (i : Nat) (hi : i < (run cap es).n) :
    ∃ k, (run cap es).got i = (((run cap es).due i).take k).map .val := by
  obtain ⟨k, hk⟩ := (HI.run cap es).stream i
  obtain ⟨t, ht⟩ := (WI.run cap es).pre i hi
  refine ⟨min k (Net.wrote i ((run cap es).did 0)).length, ?_⟩
  rw [hk, St.due, ← ht, List.take_append_of_le_length (Nat.min_le_right _ _)]
  congr 1
  rcases Nat.le_total k (Net.wrote i ((run cap es).did 0)).length with h | h
  · rw [Nat.min_eq_left h]
  · rw [Nat.min_eq_right h, List.take_of_length_le h, List.take_of_length_le (Nat.le_refl _)]

/-- Where nothing can go on but from outside, every session that is still there has every update since its subscription,
or the hub waits for a session that is gone. -/
theorem C116_rest (cap : Nat) (es : List Ev) (hr : (run cap es).rest) :
    (run cap es).served ∨ ∃ i, (run cap es).stuck i :=
  rest_cases (HI.run cap es) (WI.run cap es) hr

/-- Such a hub waits for ever, whatever happens: it takes neither updates nor subscriptions, and the sessions it has not
come to never get the last update. -/
theorem C116_stuck (cap : Nat) (es : List Ev) (i : Nat) (hs : (run cap es).stuck i) (more : List Ev) :
    (run cap (es ++ more)).stuck i ∧ (run cap (es ++ more)).log = (run cap es).log ∧
      (run cap (es ++ more)).n = (run cap es).n ∧ ¬ (run cap (es ++ more)).served ∧
      ∀ k ∈ (run cap es).todo, (run cap (es ++ more)).left k = false →
        ((run cap (es ++ more)).got k).length < ((run cap (es ++ more)).due k).length := by
  have e : run cap (es ++ more) = (run cap es).steps more := by simp [run, St.steps, List.foldl_append]
  obtain ⟨h1, h2, h3, -, h5, -⟩ := stuck_steps (HI.run cap es) hs more
  rw [← e] at h1 h2 h3 h5
  have h := HI.run cap (es ++ more)
  have w := WI.run cap (es ++ more)
  refine ⟨h1, h3, h5, fun hv => not_free h1 hv.1, fun k hk hl => ?_⟩
  rw [← h2] at hk
  have hw := w.wr k (w.small k hk) hl
  rw [if_pos hk] at hw
  obtain ⟨m, hm⟩ := h.stream k
  have hlate := w.late k hk
  rw [hm, hw, St.due]
  simp only [List.length_map, List.length_take, List.length_drop, List.length_dropLast]
  omega

/-- The hub gets into this only when a session leaves for which it waits. -/
theorem C116_why (cap : Nat) (es : List Ev) (e : Ev) (i : Nat) (h0 : ∀ k, ¬ (run cap es).stuck k)
    (hs : (run cap (es ++ [e])).stuck i) : ∃ k j, e = .leave k ∧ (run cap es).net.pos 0 = .writing k j := by
  apply Classical.byContradiction
  intro hn
  have e1 : run cap (es ++ [e]) = (run cap es).step e := by simp [run, St.steps, List.foldl_append]
  rw [e1] at hs
  exact unstuck_step (HI.run cap es) (WI.run cap es) h0 (fun k hk j hj => hn ⟨k, j, hk, hj⟩) i hs

/-- Without anything from outside only so many steps are possible. -/
theorem C116_ends (cap : Nat) (es : List Ev) : ∃ b, ∀ more, (run cap es).usefuls more → more.length ≤ b :=
  ⟨_, fun _ hm => usefuls_le (HI.run cap es) (WI.run cap es) hm⟩

/-- Exactly when the hub does not wait for a session that is gone can every session still get all it is due. -/
theorem C116_exact (cap : Nat) (es : List Ev) :
    (∃ more, (∀ e ∈ more, e.calm) ∧ (run cap (es ++ more)).served) ↔ ¬ ∃ i, (run cap es).stuck i := by
  constructor
  · rintro ⟨more, -, hv⟩ ⟨i, hs⟩
    exact (C116_stuck cap es i hs more).2.2.2.1 hv
  · intro hs
    have h := HI.run cap es
    have w := WI.run cap es
    obtain ⟨more, hc, hr⟩ := reaches h w
    have e : run cap (es ++ more) = (run cap es).steps more := by simp [run, St.steps, List.foldl_append]
    refine ⟨more, hc, ?_⟩
    rw [e]
    rcases rest_cases (h.steps more) (w.steps more) hr with hv | ⟨i, hi⟩
    · exact hv
    · exact absurd hi (unstuck_calm h w (fun i hi => hs ⟨i, hi⟩) hc i)

/-- **C116** (partial): if no session leaves while the hub waits for it, every session that is still there can get every
update since its subscription. Missing: sessions that leave at that moment, see `C116_violated`. -/
theorem C116_partial (cap : Nat) (es : List Ev) (hp : polite (St.init cap) es) :
    ∃ more, (∀ e ∈ more, e.calm) ∧ (run cap (es ++ more)).served := by
  rw [C116_exact]
  rintro ⟨i, hi⟩
  refine unstuck_polite (HI.init cap) (WI.init cap) (fun k hk => ?_) hp i hi
  obtain ⟨⟨j, hj⟩, -⟩ := hk
  cases hj

/-- Two sessions; the first does not read its second update before it leaves. -/
def quits : List Ev := [.sub, .sub, .update 1 [0, 1], .hub false, .hub false, .update 2 [0, 1], .hub false, .leave 0]

/-- **C116** (violated): a session that leaves while the hub waits for it stops the hub for ever; the other session never
gets the second update. -/
theorem C116_violated : ¬ ∀ (cap : Nat) (es : List Ev), ∃ more, (∀ e ∈ more, e.calm) ∧ (run cap (es ++ more)).served := by
  intro h
  have := (C116_exact 1 quits).1 (h 1 quits)
  apply this
  exact ⟨0, ⟨1, by decide⟩, by decide, by decide⟩

/-! ## Examples -/

/-- Both sessions get both updates, the second reads late. -/
def goes : List Ev := [.sub, .update 1 [0], .hub false, .sub, .read 0 true, .run 0 0, .update 2 [1, 0], .hub false, .hub false,
  .read 0 true, .read 1 true, .leave 0]

example : polite (St.init 1) goes := by
  refine ⟨?_, ?_, ?_, ?_, ?_, ?_, ?_, ?_, ?_, ?_, ?_, ?_, trivial⟩ <;> intro i e j
  all_goals first | cases e | skip
  intro h
  have : (run 1 goes.dropLast).net.pos 0 = .idle := by decide
  rw [show (run 1 goes.dropLast).net.pos 0 = .writing 0 j from h] at this
  cases this

example : (run 1 goes).got 0 = [.val 1, .val 2] := by decide
example : (run 1 goes).got 1 = [.val 2] := by decide
example : (run 1 goes).due 1 = [2] := by decide

/-- A session that waits for the second update. -/
example : (run 1 [.sub, .update 1 [0], .read 0 false, .hub false, .run 0 0, .read 0 true]).rest := by
  refine ⟨fun c => ?_, fun _ => by decide, fun i hi _ => ?_⟩
  · cases c with
    | zero => decide
    | succ c => rfl
  · have : i = 0 := by have : i < 1 := hi; omega
    subst this; decide

/-- In `quits` the other session has got nothing of what it is due, and the hub has not come to it. -/
example : (run 1 quits).due 1 = [1, 2] ∧ (run 1 quits).todo = [1] := by decide

/-- With a limit of two the hub does not wait and is not stuck. -/
example : (run 2 quits).net.pos 0 = .idle := by decide

/-- One more update and it waits again. -/
example : (run 2 ([.sub, .update 1 [0], .hub false, .update 2 [0], .hub false, .update 3 [0], .hub false, .leave 0])).stuck 0 :=
  ⟨⟨2, by decide⟩, by decide, by decide⟩

/-- The session that leaves has read, so that the write of the hub is posted already: the hub goes on. -/
example : ¬ (run 1 [.sub, .update 1 [0], .hub false, .update 2 [0], .hub false, .read 0 true, .leave 0]).stuck 0 := by
  rintro ⟨⟨j, hj⟩, -, hp⟩
  revert hp
  decide

end Cobalt.Hub
