import Verif.Net.Props
import Verif.Net.TreeSpec
/-! Helper: networks without cycles. -/
namespace Cobalt.Net

/-- The reader and the writer of a channel do not both wait for it when the network is at rest. -/
theorem not_both {N : Prog} (hN : N.proper) {cap : Nat → Nat} {es : List Ev} (hr : (run N cap es).rest N) {p q c v : Nat}
    (hp : N.act p ((run N cap es).hist p) = .read c) (hq : N.act q ((run N cap es).hist q) = .write c v) : False := by
  have i := NI.run hN cap es
  generalize run N cap es = s at *
  have li := i.link c
  unfold LiAt at li
  rw [hN.read _ _ _ hp, hN.write _ _ _ _ hq] at li
  have h1 : ∃ k, s.pos p = .reading c k := by
    cases h : s.pos p with
    | idle => have := hr.2 p h; rw [hp] at this; cases this
    | reading c' k => have := i.atR _ _ _ h; rw [hp] at this; cases this; exact ⟨k, rfl⟩
    | writing c' k => obtain ⟨v, h⟩ := i.atW _ _ _ h; rw [hp] at h; cases h
  have h2 : ∃ k, s.pos q = .writing c k := by
    cases h : s.pos q with
    | idle => have := hr.2 q h; rw [hq] at this; cases this
    | reading c' k => have := i.atR _ _ _ h; rw [hq] at this; cases this
    | writing c' k => obtain ⟨v, h⟩ := i.atW _ _ _ h; rw [hq] at h; cases h; exact ⟨k, rfl⟩
  obtain ⟨k, h1⟩ := h1
  obtain ⟨k', h2⟩ := h2
  rw [h1, h2] at li
  have e1 : (At.reading c k).rdOn c = some k := by simp [At.rdOn]
  have e2 : (At.writing c k').wrOn c = some k' := by simp [At.wrOn]
  rw [e1, e2] at li
  have h3 := li.inRq (hr.1 c)
  have h4 := li.inWq (hr.1 c)
  rcases li.ci.h.excl with h5 | h5
  · rw [h5] at h3; cases h3
  · rw [h5] at h4; cases h4

/-- Coroutine `p` waits for coroutine `q` over channel `c`. -/
def waits (N : Prog) (s : St) (p q c : Nat) : Prop :=
  N.act p (s.hist p) = .read c ∧ N.wr c = q ∨ ∃ v, N.act p (s.hist p) = .write c v ∧ N.rd c = q

theorem waits_used {N : Prog} {s : St} {p q c : Nat} (h : waits N s p q c) : N.used c := by
  rcases h with ⟨h, -⟩ | ⟨v, h, -⟩
  · exact ⟨_, _, .inl h⟩
  · exact ⟨_, _, .inr ⟨v, h⟩⟩

/-- Two that wait for each other do so over two channels. -/
theorem waits_back {N : Prog} (hN : N.proper) {cap : Nat → Nat} {es : List Ev} (hr : (run N cap es).rest N)
    {p q r c : Nat} (h : waits N (run N cap es) p q c) (h' : waits N (run N cap es) q r c) (hpq : p ≠ q) : False := by
  rcases h with ⟨h1, h2⟩ | ⟨v, h1, h2⟩ <;> rcases h' with ⟨h3, h4⟩ | ⟨v', h3, h4⟩
  · exact hpq ((hN.read _ _ _ h1).symm.trans (hN.read _ _ _ h3))
  · exact not_both hN hr h1 h3
  · exact not_both hN hr h3 h1
  · exact hpq ((hN.write _ _ _ _ h1).symm.trans (hN.write _ _ _ _ h3))

/-- Whoever waits, waits for its parent or for a child. -/
theorem waits_edge {N : Prog} (hN : N.proper) {par kid : Nat → Nat} (hF : N.forest par kid) {s : St} {p q c : Nat}
    (h : waits N s p q c) : p = kid c ∧ q = par (kid c) ∨ q = kid c ∧ p = par (kid c) := by
  have hu := waits_used h
  have := hF.ends c hu
  rcases h with ⟨h1, h2⟩ | ⟨v, h1, h2⟩
  · have h3 := hN.read _ _ _ h1
    rw [h2, h3] at this
    rcases this with h | h
    · exact .inl h
    · exact .inr h
  · have h3 := hN.write _ _ _ _ h1
    rw [h2, h3] at this
    rcases this with h | h
    · exact .inr ⟨h.1, h.2⟩
    · exact .inl ⟨h.1, h.2⟩

/-- A coroutine that has stopped has got as far as in any other history. -/
theorem stop_max {N : Prog} (hN : N.proper) {cap cap' : Nat → Nat} {es es' : List Ev} {p : Nat}
    (hs : N.act p ((run N cap es).hist p) = .stop) : (run N cap' es').hist p <+: (run N cap es).hist p := by
  rcases C110_determined N hN cap cap' es es' p with h | h
  · have hn := C110_results N hN cap' es' p
    obtain ⟨u, hu⟩ := h
    cases u with
    | nil => rw [← hu, List.append_nil]; exact List.prefix_refl _
    | cons x u =>
      exfalso
      have := hn ((run N cap es).hist p) x ⟨u, by rw [List.append_assoc]; exact hu⟩
      unfold fit at this
      rw [hs] at this
      exact this
  · exact h

theorem Within.of_stopped {N : Prog} (hN : N.proper) {cap : Nat → Nat} (cap' : Nat → Nat) {es : List Ev}
    (hs : ∀ p, N.act p ((run N cap es).hist p) = .stop) :
    Within N cap' (fun p => ((run N cap es).hist p).length) (bound es) := by
  refine ⟨fun es' p => (stop_max hN (hs p)).length_le, fun es' p hp => ?_⟩
  apply Classical.byContradiction
  intro h
  have a := (untouched N cap es p (bound_spec es p (by omega))).1
  have h1 := stop_max hN (hs p) (cap' := cap') (es' := es')
  have h3 := hs p
  rw [a] at h1 h3
  rw [List.prefix_nil.1 h1] at hp
  exact hp h3

end Cobalt.Net
