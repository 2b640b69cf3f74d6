import Verif.Loop.Lemmas
/-! Helper lemmas for `Props`: the rounds of the program. -/
namespace Cobalt.Loop
open Cobalt.Chan (Tok)

/-- The program comes to the state `v`. -/
def Gets (c n : Nat) (d : Bool) (v : V) : Prop := ∃ j, Sees c n d (run c n d j) v

variable {c n : Nat} {d : Bool}

theorem Gets.init : Gets c n d {} := ⟨0, Sees.init c n d⟩

theorem Gets.step {v v' : V} (h : Gets c n d v) (hs : ∀ x, Sees c n d x v → Sees c n d x.step v') : Gets c n d v' := by
  obtain ⟨j, h⟩ := h
  exact ⟨j + 1, hs _ h⟩

theorem Gets.step' {P : Nat → Prop} {v : V} {f : Nat → V} (h : Gets c n d v)
    (hs : ∀ x, Sees c n d x v → ∃ i, P i ∧ Sees c n d x.step (f i)) : ∃ i, P i ∧ Gets c n d (f i) := by
  obtain ⟨j, h⟩ := h
  obtain ⟨i, hp, h'⟩ := hs _ h
  exact ⟨i, hp, j + 1, h'⟩

/-- The producer fills the buffer. -/
theorem Gets.fill (t : Nat) : ∀ {v : V}, Gets c n d v → v.turn = .prod → v.closed = false → v.rq = [] → v.nw = v.k →
    v.k + t ≤ n → v.buf.length + t ≤ c →
    Gets c n d { v with k := v.k + t, nw := v.k + t, buf := v.buf ++ List.range' v.k t } := by
  induction t with
  | zero =>
    intro v h _ _ _ hw _ _
    have : ({ v with k := v.k + 0, nw := v.k + 0, buf := v.buf ++ List.range' v.k 0 } : V) = v := by
      cases v; simp at hw ⊢; exact hw.symm
    rw [this]; exact h
  | succ t ih =>
    intro v h ht hc hr hw hk hl
    have h1 := h.step fun x hx => hx.push ht (by omega) hc (by omega) hr
    have h2 := ih h1 ht hc hr (by dsimp only; omega) (by dsimp only; omega)
      (by dsimp only; rw [List.length_append, List.length_singleton]; omega)
    dsimp only at h2
    have e : v.buf ++ [v.nw] ++ List.range' (v.k + 1) t = v.buf ++ List.range' v.k (t + 1) := by
      rw [hw, List.append_assoc]; rfl
    rw [e, Nat.add_assoc, Nat.add_comm 1 t] at h2
    exact h2

/-- The consumer empties the buffer. -/
theorem Gets.empty (bs : List Nat) : ∀ {v : V}, Gets c n d v → v.turn = .cons → (v.closed = false ∨ d = true) →
    v.buf = bs → v.wq = [] → Gets c n d { v with buf := [], seen := v.seen ++ bs } := by
  induction bs with
  | nil =>
    intro v h _ _ hb _
    have : ({ v with buf := [], seen := v.seen ++ [] } : V) = v := by cases v; simp at hb ⊢; exact hb
    rw [this]; exact h
  | cons b bs ih =>
    intro v h ht hc hb hw
    have h1 := h.step fun x hx => hx.pop ht hc hb hw
    have h2 := ih h1 ht hc rfl hw
    dsimp only at h2
    rw [List.append_assoc] at h2
    exact h2

/-- The consumer finds the channel closed. -/
theorem Gets.leaves {v : V} (h : Gets c n d v) (ht : v.turn = .cons) (hc : v.closed = true) (hw : v.wq = []) :
    (d = false → Gets c n d { v with turn := .finished }) ∧
    (d = true → Gets c n d { v with turn := .thrown, buf := [], seen := v.seen ++ v.buf }) := by
  refine ⟨fun hd => h.step fun x hx => hx.leave ht hc hd, fun hd => ?_⟩
  have h1 := h.empty v.buf ht (Or.inr hd) rfl hw
  exact h1.step fun x hx => hx.broken ht hc hd rfl

/-- The rest of a round: the consumer empties the buffer and waits, the write that was woken puts its value into it. -/
theorem Gets.round {v : V} (h : Gets c n d v) (hc0 : 0 < c) (ht : v.turn = .cons) (hs : v.started = true)
    (hc : v.closed = false) (hw : v.wq = []) (hr : v.rq = []) {w : Nat} (hp : v.posted = [.w w]) :
    ∃ i, Gets c n d { v with buf := [w], seen := v.seen ++ v.buf, posted := [.r i], dir := none, k := v.k + 1
                             turn := .prod } := by
  have h1 := h.empty v.buf ht (Or.inl hc) rfl hw
  obtain ⟨i, -, h2⟩ := h1.step' (fun x hx => hx.wait ht hc rfl hw hr)
  have h3 := h2.step fun x hx => hx.runWrite rfl hs rfl hc0 hp rfl hw
  refine ⟨i, ?_⟩
  have e : ({ v with buf := [w], seen := v.seen ++ v.buf, posted := [.r i], dir := none, k := v.k + 1, turn := .prod } : V)
      = { v with buf := [w], seen := v.seen ++ v.buf, posted := [.r i], dir := none, k := v.k + 1, turn := .prod, rq := [] } := by
    rw [hr]
  rw [e]
  exact h3

/-- The start of round `m`: the producer has just put value number `m * c` into the empty buffer. -/
def A (c m i : Nat) : V :=
  { k := m * c + 1, buf := [m * c], posted := [.r i], started := true, seen := List.range (m * c), nw := m * c + 1 }

theorem range_range' (a t : Nat) : List.range a ++ List.range' a t = List.range (a + t) := by
  have := List.range'_append_1 (s := 0) (m := a) (n := t)
  rw [Nat.zero_add] at this
  rw [List.range_eq_range', List.range_eq_range', this]

theorem cons_range' (a t : Nat) : [a] ++ List.range' (a + 1) t = List.range' a (t + 1) := rfl

theorem Gets.first (hc0 : 0 < c) (hn : c < n) : ∃ i, Gets c n d (A c 1 i) := by
  have h1 := (Gets.init (c := c) (n := n) (d := d)).fill c rfl rfl rfl rfl (by dsimp only; omega) (by simp)
  dsimp only at h1
  have h2 := h1.step fun x hx => hx.block rfl (by dsimp only; omega) rfl (by simp) rfl rfl
  have h3 := h2.step fun x hx => hx.start rfl rfl
  obtain ⟨e, rfl⟩ : ∃ e, c = e + 1 := ⟨c - 1, by omega⟩
  have h4 := h3.step fun x hx => hx.popWake rfl rfl (b := 0) (bs := List.range' 1 e) (by simp [List.range'_succ])
    (by simp) (w := e + 1) (by simp) rfl rfl
  obtain ⟨i, h5⟩ := h4.round hc0 rfl rfl rfl rfl rfl rfl
  refine ⟨i, ?_⟩
  dsimp only at h5
  have ev : A (e + 1) 1 i = { k := 0 + (e + 1) + 1, buf := [e + 1], posted := [.r i], started := true
                              seen := [] ++ [0] ++ List.range' 1 e, nw := 0 + (e + 1) + 1 } := by
    simp only [A, Nat.one_mul, Nat.zero_add, V.mk.injEq, true_and, and_true]
    rw [List.range_eq_range']
    simp [List.range'_succ]
  rw [ev]
  exact h5

theorem Gets.next {m i : Nat} (hc0 : 0 < c) (hn : (m + 1) * c < n) (h : Gets c n d (A c m i)) :
    ∃ i, Gets c n d (A c (m + 1) i) := by
  rw [Nat.succ_mul] at hn
  have h1 := h.fill (c - 1) rfl rfl rfl rfl (by dsimp only [A]; omega) (by dsimp only [A]; simp; omega)
  dsimp only [A] at h1
  have e1 : m * c + 1 + (c - 1) = m * c + c := by omega
  have e2 : [m * c] ++ List.range' (m * c + 1) (c - 1) = List.range' (m * c) c := by
    rw [cons_range']; congr 1; omega
  rw [e1, e2] at h1
  have h2 := h1.step fun x hx => hx.block rfl (by dsimp only; omega) rfl (by simp) rfl rfl
  dsimp only at h2
  obtain ⟨e, rfl⟩ : ∃ e, c = e + 1 := ⟨c - 1, by omega⟩
  generalize hq : m * (e + 1) = q at *
  have h3 := h2.step fun x hx => hx.runReadWake rfl rfl (b := q) (bs := List.range' (q + 1) e) (by simp [List.range'_succ])
    rfl rfl (w := q + (e + 1)) rfl (by simp) rfl
  obtain ⟨i', h4⟩ := h3.round hc0 rfl rfl rfl rfl rfl rfl
  refine ⟨i', ?_⟩
  dsimp only at h4
  have ev : A (e + 1) (m + 1) i' = { k := q + (e + 1) + 1, buf := [q + (e + 1)], posted := [.r i'], started := true
                                     seen := List.range q ++ [q] ++ List.range' (q + 1) e, nw := q + (e + 1) + 1 } := by
    simp only [A, Nat.succ_mul, hq, V.mk.injEq, true_and, and_true]
    rw [List.append_assoc, cons_range', range_range']
  rw [ev]
  exact h4

theorem Gets.rounds (hc0 : 0 < c) (m : Nat) : (m + 1) * c < n → ∃ i, Gets c n d (A c (m + 1) i) := by
  induction m with
  | zero => intro h; exact Gets.first hc0 (by omega)
  | succ m ih =>
    intro h
    obtain ⟨i, hi⟩ := ih (by rw [Nat.succ_mul] at h ⊢; rw [Nat.succ_mul] at h; omega)
    exact hi.next hc0 h

/-- The state in which the program ends. -/
structure Over (c n : Nat) (d : Bool) (t : Turn) (vs : List Nat) : Prop where
  gets : ∃ v : V, Gets c n d v ∧ v.turn = t ∧ v.seen = vs ∧ v.k = n

theorem Gets.last {m i : Nat} (h : Gets c n d (A c m i)) (h1 : m * c + 1 ≤ n) (h2 : n ≤ (m + 1) * c) :
    (d = false → Over c n d .finished (List.range (m * c + 1))) ∧ (d = true → Over c n d .thrown (List.range n)) := by
  rw [Nat.succ_mul] at h2
  have g1 := h.fill (n - (m * c + 1)) rfl rfl rfl rfl (by dsimp only [A]; omega) (by dsimp only [A]; simp; omega)
  dsimp only [A] at g1
  have e1 : m * c + 1 + (n - (m * c + 1)) = n := by omega
  rw [e1] at g1
  have g2 := g1.step fun x hx => hx.close rfl rfl rfl rfl
  have g3 := g2.step fun x hx => hx.runRead rfl rfl (b := m * c) rfl rfl rfl rfl rfl
  obtain ⟨f1, f2⟩ := g3.leaves rfl rfl rfl
  refine ⟨fun hd => ⟨_, f1 hd, rfl, ?_, rfl⟩, fun hd => ⟨_, f2 hd, rfl, ?_, rfl⟩⟩
  · dsimp only; rw [List.range_succ]
  · dsimp only
    show List.range (m * c) ++ [m * c] ++ List.range' (m * c + 1) (n - (m * c + 1)) = _
    rw [← List.range_succ, range_range', e1]

/-- Less than a buffer: the channel is closed before the consumer starts. -/
theorem Gets.short (h1 : n ≤ c) :
    (d = false → Over c n d .finished []) ∧ (d = true → Over c n d .thrown (List.range n)) := by
  have g1 := (Gets.init (c := c) (n := n) (d := d)).fill n rfl rfl rfl rfl (by simp) (by simpa using h1)
  dsimp only at g1
  have g2 := g1.step fun x hx => hx.close rfl (by simp) rfl rfl
  have g3 := g2.step fun x hx => hx.start rfl rfl
  obtain ⟨f1, f2⟩ := g3.leaves rfl rfl rfl
  refine ⟨fun hd => ⟨_, f1 hd, rfl, rfl, by simp⟩, fun hd => ⟨_, f2 hd, rfl, ?_, by simp⟩⟩
  simp [List.range_eq_range']

/-- Without a buffer: `k` values have been handed over, the last one is on its way to the consumer. -/
def B (k i : Nat) : V :=
  { k := k + 1, posted := [.r i], dir := some k, started := true, seen := List.range k, nw := k + 1 }

theorem Gets.meets (k : Nat) : k < n → ∃ i, Gets 0 n d (B k i) := by
  induction k with
  | zero =>
    intro h
    have g1 := (Gets.init (c := 0) (n := n) (d := d)).step fun x hx => hx.block rfl h rfl rfl rfl rfl
    have g2 := g1.step fun x hx => hx.start rfl rfl
    obtain ⟨i, -, g3⟩ := g2.step' (P := fun _ => True) (fun x hx => by
      obtain ⟨i, hi⟩ := hx.meet rfl rfl rfl rfl rfl rfl
      exact ⟨i, trivial, hi⟩)
    exact ⟨i, g3⟩
  | succ k ih =>
    intro h
    obtain ⟨i, g0⟩ := ih (by omega)
    have g1 := g0.step fun x hx => hx.block rfl (by dsimp only [B]; omega) rfl rfl rfl rfl
    have g2 := g1.step fun x hx => hx.runDirect rfl rfl rfl rfl rfl rfl (by simp [B])
    obtain ⟨i, -, g3⟩ := g2.step' (P := fun _ => True) (fun x hx => by
      obtain ⟨i, hi⟩ := hx.meet rfl rfl rfl rfl rfl rfl
      exact ⟨i, trivial, hi⟩)
    refine ⟨i, ?_⟩
    dsimp only [B] at g3 ⊢
    rw [← List.range_succ] at g3
    exact g3

theorem Gets.noBuffer : (d = false → Over 0 n d .finished (List.range n)) ∧ (d = true → Over 0 n d .thrown (List.range n)) := by
  cases n with
  | zero => exact Gets.short (Nat.le_refl 0)
  | succ k =>
    obtain ⟨i, g0⟩ := Gets.meets (n := k + 1) (d := d) k (by omega)
    have g1 := g0.step fun x hx => hx.close rfl rfl rfl rfl
    have g2 := g1.step fun x hx => hx.runDirect rfl rfl rfl rfl rfl rfl (fun _ => rfl)
    obtain ⟨f1, f2⟩ := g2.leaves rfl rfl rfl
    refine ⟨fun hd => ⟨_, f1 hd, rfl, ?_, rfl⟩, fun hd => ⟨_, f2 hd, rfl, ?_, rfl⟩⟩
    · dsimp only [B]; rw [List.range_succ]
    · dsimp only [B]; rw [List.append_nil, List.range_succ]

theorem Over.ends {t : Turn} {vs : List Nat} (h : Over c n d t vs) (ht : t = .finished ∨ t = .thrown) :
    Ends c n d t vs := by
  obtain ⟨v, ⟨j, h⟩, h1, h2, h3⟩ := h
  refine ⟨j, fun i hi => ?_⟩
  have same : ∀ e, run c n d (j + e) = run c n d j := by
    intro e
    induction e with
    | zero => rfl
    | succ e ih =>
      show (run c n d (j + e)).step = _
      rw [ih]
      have : (run c n d j).turn = t := by rw [h.turn, h1]
      unfold St.step
      rw [this]
      rcases ht with rfl | rfl <;> rfl
  obtain ⟨e, rfl⟩ : ∃ e, i = j + e := ⟨i - j, by omega⟩
  rw [same]
  exact ⟨by rw [h.turn, h1], by rw [h.seen, h2], by rw [h.k, h3], h.ub, h.as⟩

end Cobalt.Loop
