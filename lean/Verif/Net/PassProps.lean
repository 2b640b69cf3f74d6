import Verif.Net.Trunc
import Verif.Net.MeetProps
/-! Property C134: a channel is a buffer of limited size. -/
namespace Cobalt.Net
open Chan (upd)

/-- **C134**: when a network with these limits or higher ones has come to rest, everything has happened that can happen
with buffers of these sizes. -/
theorem C134_least (N : Prog) (hN : N.proper) (cap cap' : Nat → Nat) (hc : ∀ c, cap c ≤ cap' c) (H : Nat → List Res)
    (h : Passes N cap H) (es : List Ev) (hr : (run N cap' es).rest N) (p : Nat) : H p <+: (run N cap' es).hist p :=
  h.least hN (NI.run hN cap' es) (fun c => by rw [run_cap]; exact hc c) hr p

/-- **C134**: nothing happens that cannot happen with buffers. -/
theorem C134_most (N : Prog) (hN : N.proper) (cap : Nat → Nat) (es : List Ev) :
    ∃ H, Passes N cap H ∧ ∀ p, (run N cap es).hist p <+: H p :=
  mostP hN cap es

/-- **C134**: and everything that can happen with buffers happens with channels, if the executor is so minded. -/
theorem C134_reach (N : Prog) (hN : N.proper) (cap : Nat → Nat) (H : Nat → List Res) (h : Passes N cap H) :
    ∃ es, (run N cap es).hist = H := by
  obtain ⟨b, hb⟩ := (Passes.pi hN h).fin
  have ht := trunc_proper hN fun p => (H p).length
  obtain ⟨-, h1⟩ := C110_stops (N.trunc fun p => (H p).length) ht cap (fun p => (H p).length) b
    (fun p l hl => by simp only [Prog.trunc]; rw [if_neg (by omega)]) (fun p hp => by rw [hb p hp]; rfl)
  obtain ⟨more, hm⟩ := h1 []
  have h2 := C134_least _ ht cap cap (fun _ => Nat.le_refl _) H (h.trunc fun p => Nat.le_refl _) _ hm
  obtain ⟨es', he⟩ := trunc_run N (fun p => (H p).length) cap ([] ++ more)
  refine ⟨es', ?_⟩
  rw [← he]
  funext p
  exact ((h2 p).eq_of_length (Nat.le_antisymm (h2 p).length_le (run_len hN _ cap _ p))).symm

/-- **C134**, the main statement: whatever should never happen, it never happens with channels if and only if it never
happens with buffers. (What should never happen is a set of results to which more results can be added.) -/
theorem C134_safety (N : Prog) (hN : N.proper) (cap : Nat → Nat) (Good : (Nat → List Res) → Prop)
    (hG : ∀ H H', (∀ p, H p <+: H' p) → Good H' → Good H) :
    (∀ es, Good (run N cap es).hist) ↔ ∀ H, Passes N cap H → Good H := by
  constructor
  · intro h H hH
    obtain ⟨es, he⟩ := C134_reach N hN cap H hH
    rw [← he]; exact h es
  · intro h es
    obtain ⟨H, h1, h2⟩ := C134_most N hN cap es
    exact hG _ _ h2 (h H h1)

/-- **C134**, exactly: where a network comes to rest is where nothing can happen with buffers any more. -/
theorem C134_exact (N : Prog) (hN : N.proper) (cap : Nat → Nat) (es : List Ev) (hr : (run N cap es).rest N) :
    Passes N cap (run N cap es).hist ∧ ∀ H, Passes N cap H → ∀ p, H p <+: (run N cap es).hist p := by
  refine ⟨?_, fun H h => C134_least N hN cap cap (fun _ => Nat.le_refl _) H h es hr⟩
  obtain ⟨H, h1, h2⟩ := C134_most N hN cap es
  have h3 := C134_least N hN cap cap (fun _ => Nat.le_refl _) H h1 es hr
  have : (run N cap es).hist = H := by
    funext p
    exact (h2 p).eq_of_length (Nat.le_antisymm (h2 p).length_le (h3 p).length_le)
  rw [this]; exact h1

/-- **C134**: buffers for no values are meetings (C133). -/
theorem C134_meets (N : Prog) (hN : N.proper) (H : Nat → List Res) : Passes N (fun _ => 0) H ↔ Meets N H :=
  ⟨Passes.meets hN, Meets.passes hN⟩

/-- With channels nobody gets further than to its end. -/
theorem passes_max {N : Prog} (hN : N.proper) {cap : Nat → Nat} {H : Nat → List Res} (h : Passes N cap H) {p : Nat}
    (hs : N.act p (H p) = .stop) (cap' : Nat → Nat) (es : List Ev) : (run N cap' es).hist p <+: H p := by
  rcases h.comp hN (NI.run hN cap' es) p with h1 | h1
  · obtain ⟨r, hr⟩ := h1
    cases r with
    | nil => rw [← hr, List.append_nil]; exact List.prefix_refl _
    | cons x xs =>
      exfalso
      have h2 := C110_results N hN cap' es p (H p) x ⟨xs, by rw [← hr]; simp⟩
      unfold fit at h2
      rw [hs] at h2
      exact h2
  · exact h1

/-- **C134**: if with buffers of some sizes there is one order in which all coroutines finish, then with channels of these
limits or higher ones all finish, with the same results, whatever the executor does. -/
theorem C134_finishes (N : Prog) (hN : N.proper) (cap cap' : Nat → Nat) (hc : ∀ c, cap c ≤ cap' c) (H : Nat → List Res)
    (h : Passes N cap H) (hs : ∀ p, N.act p (H p) = .stop) :
    (∃ m, ∀ es, (St.init cap').usefuls N es → es.length ≤ m) ∧
    (∀ es, ∃ more, (run N cap' (es ++ more)).rest N) ∧
    ∀ es, (run N cap' es).rest N → (run N cap' es).hist = H := by
  obtain ⟨b, hb⟩ := (Passes.pi hN h).fin
  have hW : Within N cap' (fun p => (H p).length) b := by
    refine ⟨fun es p => (passes_max hN h (hs p) cap' es).length_le, fun es p hp => ?_⟩
    apply Classical.byContradiction
    intro hn
    have h1 := passes_max hN h (hs p) cap' es
    have h2 := hs p
    rw [hb p (by omega)] at h1 h2
    rw [List.prefix_nil.1 h1] at hp
    exact hp h2
  refine ⟨⟨_, fun es hu => Nat.le_trans (Nat.le_add_right _ _) (usefuls_bound hN hW [] es hu)⟩,
    fun es => reaches hN hW es, fun es hr => ?_⟩
  funext p
  have h1 := passes_max hN h (hs p) cap' es
  have h2 := C134_least N hN cap cap' hc H h es hr p
  exact h1.eq_of_length (Nat.le_antisymm h1.length_le h2.length_le)

/-! ## Examples -/

/-- The two of `crossed`, with a buffer for one value: both finish. -/
theorem crossed_passes : Passes crossed (fun _ => 1)
    (upd (upd (upd (upd (fun _ => []) 0 [.ok]) 0 [.ok, .ok]) 1 [.val 8]) 1 [.val 8, .val 7]) := by
  have a1 : Passes crossed (fun _ => 1) (upd (fun _ => []) 0 [.ok]) :=
    .put (c := 0) (v := 7) .start rfl (by decide) (by decide)
  have a2 : Passes crossed (fun _ => 1) (upd (upd (fun _ => []) 0 [.ok]) 0 [.ok, .ok]) :=
    .put (c := 1) (v := 8) a1 rfl (by decide) (by decide)
  have a3 : Passes crossed (fun _ => 1) (upd (upd (upd (fun _ => []) 0 [.ok]) 0 [.ok, .ok]) 1 [.val 8]) :=
    .get (c := 1) (v := 8) a2 rfl (by decide)
  exact .get (c := 0) (v := 7) a3 rfl (by decide)

/-- So with any limits but 0 both finish, in every history. -/
example (cap : Nat → Nat) (hc : ∀ c, 1 ≤ cap c) (es : List Ev) (hr : (run crossed cap es).rest crossed) :
    (run crossed cap es).hist 1 = [.val 8, .val 7] := by
  refine (congrFun ((C134_finishes crossed crossed_proper (fun _ => 1) cap hc _ crossed_passes fun p => ?_).2.2 es hr) 1).trans rfl
  match p with
  | 0 => rfl
  | 1 => rfl
  | p + 2 => rfl

/-- In between, one of those who have met may have gone on and the other not: its resumption is posted. -/
example : (run (barrier 1 1) (fun _ => 0) [.go 1 true, .go 0 true]).hist 0 = [] ∧
    (run (barrier 1 1) (fun _ => 0) [.go 1 true, .go 0 true]).hist 1 ≠ [] := by decide

end Cobalt.Net
