import Verif.Net.Bar
import Verif.Net.Meet3
/-! Property C133: a network of coroutines and channels does at least what it would do if readers and writers met, and
with limits 0 just that. -/
namespace Cobalt.Net
open Chan (upd)

/-- **C133**: whatever the limits of the channels are and whatever the executor does, when the network has come to rest
everything has happened that can happen if readers and writers meet. -/
theorem C133_least (N : Prog) (hN : N.proper) (H : Nat → List Res) (h : Meets N H) (cap : Nat → Nat) (es : List Ev)
    (hr : (run N cap es).rest N) (p : Nat) : H p <+: (run N cap es).hist p :=
  h.least hN (NI.run hN cap es) hr p

/-- **C133**: with limits 0 nothing happens that cannot happen if readers and writers meet. -/
theorem C133_most (N : Prog) (hN : N.proper) (es : List Ev) :
    ∃ H, Meets N H ∧ ∀ p, (run N (fun _ => 0) es).hist p <+: H p :=
  most hN (fun _ => rfl) es

/-- **C133**, exactly: where a network with limits 0 comes to rest is where readers and writers have met until there are
no two left that could meet; everything else that can happen if they meet is on the way there. -/
theorem C133_exact (N : Prog) (hN : N.proper) (es : List Ev) (hr : (run N (fun _ => 0) es).rest N) :
    Meets N (run N (fun _ => 0) es).hist ∧ ∀ H, Meets N H → ∀ p, H p <+: (run N (fun _ => 0) es).hist p := by
  refine ⟨?_, fun H h => C133_least N hN H h _ es hr⟩
  obtain ⟨H, h1, h2⟩ := C133_most N hN es
  have h3 := C133_least N hN H h1 _ es hr
  have : (run N (fun _ => 0) es).hist = H := by
    funext p
    exact (h2 p).eq_of_length (Nat.le_antisymm (h2 p).length_le (h3 p).length_le)
  rw [this]; exact h1

/-- With channels nobody gets further than to its end. -/
theorem stopped_max {N : Prog} (hN : N.proper) {H : Nat → List Res} (h : Meets N H) {p : Nat}
    (hs : N.act p (H p) = .stop) (cap : Nat → Nat) (es : List Ev) : (run N cap es).hist p <+: H p := by
  rcases h.comp hN (NI.run hN cap es) p with h1 | h1
  · obtain ⟨r, hr⟩ := h1
    cases r with
    | nil => rw [← hr, List.append_nil]; exact List.prefix_refl _
    | cons x xs =>
      exfalso
      have h2 := C110_results N hN cap es p (H p) x ⟨xs, by rw [← hr]; simp⟩
      unfold fit at h2
      rw [hs] at h2
      exact h2
  · exact h1

theorem Within.of_meets {N : Prog} (hN : N.proper) {H : Nat → List Res} (h : Meets N H)
    (hs : ∀ p, N.act p (H p) = .stop) (cap : Nat → Nat) : ∃ b, Within N cap (fun p => (H p).length) b := by
  obtain ⟨b, hb⟩ := (Meets.mi hN h).fin
  refine ⟨b, fun es p => (stopped_max hN h (hs p) cap es).length_le, fun es p hp => ?_⟩
  apply Classical.byContradiction
  intro hn
  have h1 := stopped_max hN h (hs p) cap es
  have h2 := hs p
  rw [hb p (by omega)] at h1 h2
  rw [List.prefix_nil.1 h1] at hp
  exact hp h2

/-- **C133**, the main statement: if there is one order in which readers and writers can meet such that all coroutines
finish, then with channels all coroutines finish, with the same results, whatever the limits are and whatever the
executor does. -/
theorem C133_finishes (N : Prog) (hN : N.proper) (H : Nat → List Res) (h : Meets N H) (hs : ∀ p, N.act p (H p) = .stop)
    (cap : Nat → Nat) :
    (∃ m, ∀ es, (St.init cap).usefuls N es → es.length ≤ m) ∧
    (∀ es, ∃ more, (run N cap (es ++ more)).rest N) ∧
    ∀ es, (run N cap es).rest N → (run N cap es).hist = H := by
  obtain ⟨b, hW⟩ := Within.of_meets hN h hs cap
  refine ⟨⟨_, fun es hu => Nat.le_trans (Nat.le_add_right _ _) (usefuls_bound hN hW [] es hu)⟩,
    fun es => reaches hN hW es, fun es hr => ?_⟩
  funext p
  have h1 := stopped_max hN h (hs p) cap es
  have h2 := C133_least N hN H h cap es hr p
  exact h1.eq_of_length (Nat.le_antisymm h1.length_le h2.length_le)

/-- **C133**: whether all coroutines finish with every choice of limits can be decided by letting readers and writers
meet, in any one order. -/
theorem C133_iff (N : Prog) (hN : N.proper) :
    (∀ cap : Nat → Nat, ∃ es, ∀ p, N.act p ((run N cap es).hist p) = .stop) ↔
    ∃ H, Meets N H ∧ ∀ p, N.act p (H p) = .stop := by
  constructor
  · intro h
    obtain ⟨es, h⟩ := h fun _ => 0
    obtain ⟨H, h1, h2⟩ := C133_most N hN es
    refine ⟨H, h1, fun p => ?_⟩
    -- nobody gets further than to its end
    obtain ⟨r, hr⟩ := h2 p
    cases r with
    | nil => rw [← hr, List.append_nil]; exact h p
    | cons x xs =>
      exfalso
      have h3 := (Meets.mi hN h1).res p ((run N (fun _ => 0) es).hist p) x ⟨xs, by rw [← hr]; simp⟩
      unfold came at h3
      rw [h p] at h3
      exact h3
  · rintro ⟨H, h, hs⟩ cap
    obtain ⟨-, h1, h2⟩ := C133_finishes N hN H h hs cap
    obtain ⟨more, h3⟩ := h1 []
    exact ⟨[] ++ more, fun p => by rw [h2 _ h3]; exact hs p⟩

/-- **C133**: the order of the meetings does not matter: when nobody can meet anybody any more, everything has happened
that can happen in any order. -/
theorem C133_any (N : Prog) (hN : N.proper) (H H' : Nat → List Res) (h : Meets N H) (hs : Stuck N H) (h' : Meets N H')
    (p : Nat) : H' p <+: H p :=
  h.le_stuck hN hs h' p

/-- **C133**: so let readers and writers meet in any order until nobody can meet anybody. If somebody has not finished
then, there are limits with which the network does not finish, whatever the executor does, and limits 0 are such; otherwise
it finishes with all limits. -/
theorem C133_decides (N : Prog) (hN : N.proper) (H : Nat → List Res) (h : Meets N H) (hs : Stuck N H) :
    ((∃ p, N.act p (H p) ≠ .stop) → ∀ es, ∃ p, N.act p ((run N (fun _ => 0) es).hist p) ≠ .stop) ∧
    ((∀ p, N.act p (H p) = .stop) →
      ∀ cap es, (run N cap es).rest N → ∀ p, N.act p ((run N cap es).hist p) = .stop) := by
  constructor
  · rintro ⟨p, hp⟩ es
    apply Classical.byContradiction
    intro hno
    have hall : ∀ p, N.act p ((run N (fun _ => 0) es).hist p) = .stop := fun p =>
      Classical.byContradiction fun h => hno ⟨p, h⟩
    obtain ⟨H', h1, h2⟩ := C133_most N hN es
    have h3 : (run N (fun _ => 0) es).hist p <+: H p := (h2 p).trans (C133_any N hN H H' h hs h1 p)
    obtain ⟨r, hr⟩ := h3
    cases r with
    | nil => rw [List.append_nil] at hr; rw [← hr] at hp; exact hp (hall p)
    | cons x xs =>
      have h4 := (Meets.mi hN h).res p ((run N (fun _ => 0) es).hist p) x ⟨xs, by rw [← hr]; simp⟩
      unfold came at h4
      rw [hall p] at h4
      exact h4
  · intro hall cap es hr p
    rw [(C133_finishes N hN H h hall cap).2.2 es hr]
    exact hall p

/-! ## A barrier -/

/-- **C133**: a barrier made of channels of any limits holds: nobody leaves its meeting number `r` before everybody has
come to it. -/
theorem C133_barrier (n R : Nat) (cap : Nat → Nat) (es : List Ev) (i j r : Nat) (hi : i < n) (hj : j < n)
    (h : 2 * (r + 1) ≤ ((run (barrier n R) cap es).hist i).length) : 2 * r + 1 ≤ (run (barrier n R) cap es).begun j :=
  arrived hj cap es (let_go hi cap es (by omega))

/-- **C133**: … and nobody waits for ever there: after boundedly many steps all participants have been to all meetings. -/
theorem C133_barrier_finishes (n R : Nat) (cap : Nat → Nat) :
    (∃ m, ∀ es, (St.init cap).usefuls (barrier n R) es → es.length ≤ m) ∧
    (∀ es, ∃ more, (run (barrier n R) cap (es ++ more)).rest (barrier n R)) ∧
    ∀ es, (run (barrier n R) cap es).rest (barrier n R) →
      ∀ i, i < n → ((run (barrier n R) cap es).hist i).length = 2 * R := by
  obtain ⟨H, h1, h2, h3⟩ := rounds (n := n) R (Nat.le_refl R)
  have hs : ∀ p, (barrier n R).act p (H p) = .stop := by
    intro p
    by_cases hp : p < n
    · rw [act_guest hp, h2 p hp, guest, if_neg (by omega)]
    · by_cases hp' : p = n
      · subst hp'; rw [act_host, h3, host, if_neg (by omega)]
      · simp [barrier, hp, hp']
  obtain ⟨a, b, c⟩ := C133_finishes _ (barrier_proper n R) H h1 hs cap
  exact ⟨a, b, fun es hr i hi => by rw [c es hr]; exact h2 i hi⟩

/-! ## Examples -/

/-- Coroutine 0 writes to channel 0 and then to channel 1; coroutine 1 reads in the other order. -/
def crossed : Prog where
  act := fun p h =>
    match p, h.length with
    | 0, 0 => .write 0 7
    | 0, 1 => .write 1 8
    | 1, 0 => .read 1
    | 1, 1 => .read 0
    | _, _ => .stop
  rd := fun _ => 1
  wr := fun _ => 0

theorem crossed_proper : crossed.proper := by
  constructor
  all_goals
    intro p h c
    simp only [crossed]
    split <;> simp

/-- If readers and writers have to meet, nothing happens at all. -/
theorem crossed_meets {H : Nat → List Res} (h : Meets crossed H) : H = fun _ => [] := by
  induction h with
  | start => rfl
  | meet h hr hw ho ih =>
    subst ih
    simp only [crossed, List.length_nil] at hr hw
    exfalso
    split at hr <;> split at hw <;> simp_all <;> omega
  | close h hc ih =>
    subst ih
    simp only [crossed, List.length_nil] at hc
    split at hc <;> simp at hc
  | ended h hr hs ih => subst ih; simp [done] at hs
  | shut h hw hs ih => subst ih; simp [done] at hs

/-- **C133**: with buffers more can happen: the values go through when channel 0 has room for one. With limits 0 the two
wait for each other for ever. So tests with buffers do not show that a program works with smaller ones. -/
theorem C133_buffers :
    ((run crossed (fun _ => 1) [.go 0 true, .go 0 true, .go 1 true, .go 1 true]).hist 1 = [.val 8, .val 7]) ∧
    ∀ es p, (run crossed (fun _ => 0) es).hist p = [] := by
  refine ⟨by decide, fun es p => ?_⟩
  obtain ⟨H, h1, h2⟩ := C133_most crossed crossed_proper es
  have := h2 p
  rw [crossed_meets h1] at this
  exact List.prefix_nil.1 this

theorem crossed_stuck : Stuck crossed fun _ => [] := by
  refine ⟨fun p q c v hr hw => ?_, fun p c h => ?_, fun p c h => by simp [done], fun p c v h => by simp [done]⟩
  · exfalso
    simp only [crossed, List.length_nil] at hr hw
    split at hr <;> split at hw <;> simp_all <;> omega
  · simp only [crossed, List.length_nil] at h
    split at h <;> simp at h

example : ∀ es, ∃ p, crossed.act p ((run crossed (fun _ => 0) es).hist p) ≠ .stop :=
  (C133_decides crossed crossed_proper _ .start crossed_stuck).1 ⟨0, by decide⟩

/-- Three participants and their host, two meetings; somebody has left the first one. -/
example : 2 ≤ ((run (barrier 3 2) (fun _ => 0)
    [.go 3 true, .go 0 true, .run 0 0, .go 3 true, .go 1 true, .run 2 0, .go 3 true, .go 2 true, .run 4 0,
      .go 0 true, .go 3 true, .run 1 0]).hist 0).length := by decide

/-- Two of them have come, the third has not: nobody has left. -/
example : (run (barrier 3 2) (fun _ => 5) [.go 3 true, .go 0 true, .run 0 0, .go 3 true, .go 1 true, .run 2 0,
    .go 3 true, .go 0 true, .go 1 true]).begun 2 = 0 := by decide

end Cobalt.Net
