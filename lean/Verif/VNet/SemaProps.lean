import Verif.VNet.Sema
import Verif.VNet.Props
/-!
# C137: `channel<void>` is a counter between 0 and its limit
-/
namespace Cobalt.VNet

/-- **C137**: everything that can happen with counters happens with channels, if the executor is so minded. -/
theorem C137_reach (N : Prog) (hN : N.proper) (cap : Nat → Nat) (hc : ∀ c, cap c < 2 ^ 64) (k : Nat → Nat)
    (h : Counts N cap k) : ∃ es, (run N cap es).ops = k := by
  obtain ⟨H, h1, h2⟩ := h.up
  obtain ⟨es, he⟩ := Net.C134_reach (up N) (up_proper hN) cap H h1
  refine ⟨es, ?_⟩
  funext p
  rw [ops_eq hN hc, he, h2.length]

/-- **C137**: nothing happens that cannot happen with counters. -/
theorem C137_most (N : Prog) (hN : N.proper) (cap : Nat → Nat) (hc : ∀ c, cap c < 2 ^ 64) (es : List Net.Ev) :
    ∃ k, Counts N cap k ∧ ∀ p, (run N cap es).ops p ≤ k p := by
  obtain ⟨H, h1, h2⟩ := Net.C134_most (up N) (up_proper hN) cap es
  obtain ⟨k, h3, h4⟩ := passes_counts h1
  refine ⟨k, h3, fun p => ?_⟩
  rw [ops_eq hN hc, ← h4.length]
  exact (h2 p).length_le

/-- **C137**, the main statement: that coroutines never get too far holds with channels if and only if it holds with
counters. -/
theorem C137_safety (N : Prog) (hN : N.proper) (cap : Nat → Nat) (hc : ∀ c, cap c < 2 ^ 64) (P : (Nat → Nat) → Prop)
    (hP : ∀ k k' : Nat → Nat, (∀ p, k p ≤ k' p) → P k' → P k) :
    (∀ es, P (run N cap es).ops) ↔ ∀ k, Counts N cap k → P k := by
  constructor
  · intro h k hk
    obtain ⟨es, he⟩ := C137_reach N hN cap hc k hk
    rw [← he]; exact h es
  · intro h es
    obtain ⟨k, h1, h2⟩ := C137_most N hN cap hc es
    exact hP _ _ h2 (h k h1)

/-- **C137**, exactly: where a network comes to rest is the farthest the coroutines get with counters, and they do get
there. -/
theorem C137_exact (N : Prog) (hN : N.proper) (cap : Nat → Nat) (hc : ∀ c, cap c < 2 ^ 64) (es : List Net.Ev)
    (hr : (run N cap es).rest N) :
    Counts N cap (run N cap es).ops ∧ ∀ k, Counts N cap k → ∀ p, k p ≤ (run N cap es).ops p := by
  have hr' : (Net.run (up N) cap es).rest (up N) := by
    rw [(run_alike hN hc es).1] at hr; exact (rest_up _).1 hr
  obtain ⟨h1, h2⟩ := Net.C134_exact (up N) (up_proper hN) cap es hr'
  obtain ⟨k, h3, h4⟩ := passes_counts h1
  have e : (run N cap es).ops = k := by
    funext p; rw [ops_eq hN hc, h4.length]
  refine ⟨by rw [e]; exact h3, fun k' h p => ?_⟩
  obtain ⟨H, h5, h6⟩ := h.up
  rw [ops_eq hN hc, ← h6.length]
  exact (h2 H h5 p).length_le

/-- **C137** with limits 0: the same with meetings in place of counters. -/
theorem C137_meets (N : Prog) (hN : N.proper) (es : List Net.Ev) (hr : (run N (fun _ => 0) es).rest N) :
    Meets N (run N (fun _ => 0) es).ops ∧ ∀ k, Meets N k → ∀ p, k p ≤ (run N (fun _ => 0) es).ops p := by
  have hc : ∀ _ : Nat, 0 < 2 ^ 64 := fun _ => by decide
  have hr' : (Net.run (up N) (fun _ => 0) es).rest (up N) := by
    rw [(run_alike hN hc es).1] at hr; exact (rest_up _).1 hr
  obtain ⟨h1, -⟩ := Net.C133_exact (up N) (up_proper hN) es hr'
  obtain ⟨k, h3, h4⟩ := meets_counts h1
  have e : (run N (fun _ => 0) es).ops = k := by
    funext p; rw [ops_eq hN hc, h4.length]
  exact ⟨by rw [e]; exact h3, fun k' h p => C136_meets N hN k' h _ hc es hr p⟩

/-- **C137**: there is no deadlock with any limits if and only if readers and writers can meet, in some order, until
everybody has stopped. -/
theorem C137_iff (N : Prog) (hN : N.proper) :
    (∀ cap : Nat → Nat, (∀ c, cap c < 2 ^ 64) → ∃ es, ∀ p, N.nth p ((run N cap es).ops p) = .stop) ↔
    ∃ k, Meets N k ∧ ∀ p, N.nth p (k p) = .stop := by
  constructor
  · intro h
    have hc : ∀ _ : Nat, 0 < 2 ^ 64 := fun _ => by decide
    have h' : ∀ cap : Nat → Nat, ∃ es, ∀ p, (up N).act p ((Net.run (up N) cap es).hist p) = .stop := by
      obtain ⟨es, h1⟩ := h (fun _ => 0) hc
      have h1' : ∀ p, (up N).act p ((Net.run (up N) (fun _ => 0) es).hist p) = .stop := fun p => by
        rw [(net_oks hN hc es).act, h1 p]; rfl
      obtain ⟨H, h2, h3⟩ := Net.C133_most (up N) (up_proper hN) es
      have hs : ∀ p, (up N).act p (H p) = .stop := by
        intro p
        obtain ⟨r, hr⟩ := h3 p
        cases r with
        | nil => rw [← hr, List.append_nil]; exact h1' p
        | cons x xs =>
          exfalso
          have h4 := (Net.Meets.mi (up_proper hN) h2).res p ((Net.run (up N) (fun _ => 0) es).hist p) x ⟨xs, by rw [← hr]; simp⟩
          unfold Net.came at h4
          rw [h1' p] at h4
          exact h4
      exact (Net.C133_iff (up N) (up_proper hN)).2 ⟨H, h2, hs⟩
    obtain ⟨H, h2, h3⟩ := (Net.C133_iff (up N) (up_proper hN)).1 h'
    obtain ⟨k, h4, h5⟩ := meets_counts h2
    exact ⟨k, h4, fun p => by have := h3 p; rw [h5.act] at this; exact upA_stop.1 this⟩
  · rintro ⟨k, h, hs⟩ cap hc
    obtain ⟨h1, h2⟩ := C136_finishes N hN k h hs cap hc
    obtain ⟨more, hm⟩ := h1 []
    refine ⟨[] ++ more, fun p => ?_⟩
    have := h2 _ hm p
    unfold St.ops
    rw [this, List.length_replicate]; exact hs p

/-! ## An example -/

/-- With counters of limit 2 the first of two coroutines can be two writes ahead. -/
def ahead : Prog where
  act := fun p _ => if p = 0 then .write 0 else if p = 1 then .read 0 else .stop
  rd := fun _ => 1
  wr := fun _ => 0

theorem ahead_proper : ahead.proper := by
  constructor
  all_goals
    intro p h c ha
    simp only [ahead] at ha ⊢
    split at ha
    · cases ha <;> simp_all
    · split at ha
      · cases ha <;> simp_all
      · cases ha

example : ∃ k, Counts ahead (fun _ => 2) k ∧ k 0 = 2 ∧ k 1 = 0 := by
  have h := Counts.start (N := ahead) (cap := fun _ => 2)
  have h := h.put (q := 0) (c := 0) (by decide) (by decide)
  have h := h.put (q := 0) (c := 0) (by decide) (by decide)
  exact ⟨_, h, by decide, by decide⟩

/-- So the channel does that too. -/
example : ∃ es, (run ahead (fun _ => 2) es).ops 0 = 2 ∧ (run ahead (fun _ => 2) es).ops 1 = 0 := by
  have h := Counts.start (N := ahead) (cap := fun _ => 2)
  have h := h.put (q := 0) (c := 0) (by decide) (by decide)
  have h := h.put (q := 0) (c := 0) (by decide) (by decide)
  obtain ⟨es, he⟩ := C137_reach ahead ahead_proper _ (fun _ => by decide) _ h
  exact ⟨es, by rw [he]; decide, by rw [he]; decide⟩

end Cobalt.VNet
