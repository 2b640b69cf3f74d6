import Verif.Comb.TreeTxn
/-! # C89: a combinator never begins a transaction of the race that awaits it -/
namespace Cobalt.Comb
open Tree

/-- The transactions in the history of a node are those of awaitables that are not combinators. -/
def Outer : Tree → Prop
  | leaf => True
  | node _ es kids => (∀ i, Ev.txn i ∈ es → (kids i).isLeaf = true) ∧ ∀ j, Outer (kids j)

theorem Outer.fresh : ∀ t : Tree, t.Fresh → Outer t
  | leaf, _ => trivial
  | node _ _ kids, h => And.intro (fun i hi => by rw [h.2.2.1] at hi; exact absurd hi List.not_mem_nil)
      fun j => Outer.fresh (kids j) (h.2.2.2 j)

theorem Outer.at : ∀ (p : List Nat) {t : Tree}, Outer t → Outer (t.at' p)
  | [], t, h => by cases t <;> exact h
  | _ :: _, leaf, _ => trivial
  | j :: p, node _ _ _, h => Outer.at p (h.2 j)

theorem Outer.feed {t u : Tree} {e : Ev} (h : Outer t) (he : ∀ i, e = .txn i → (t.kid i).isLeaf = true)
    (hf : t.feed e = .ok u) : Outer u ∧ t.isLeaf = u.isLeaf := by
  obtain ⟨c, es, kids, rfl, rfl, -, -⟩ := feed_eq hf
  refine ⟨⟨fun i hi => ?_, h.2⟩, rfl⟩
  rcases List.mem_append.1 hi with hi | hi
  · exact h.1 i hi
  · exact he i (List.mem_singleton.1 hi).symm

theorem Outer.put {t u : Tree} {j : Nat} {n : Next} (h : Outer t)
    (hn : ∀ v, n = .ok v → Outer v ∧ (t.kid j).isLeaf = v.isLeaf) (hp : t.put j n = .ok u) :
    Outer u ∧ t.isLeaf = u.isLeaf := by
  obtain ⟨c, es, kids, v, rfl, rfl, rfl⟩ := put_eq hp
  obtain ⟨h1, h2⟩ := hn v rfl
  refine ⟨⟨fun i hi => ?_, fun i => ?_⟩, rfl⟩
  · by_cases hij : i = j
    · subst hij
      have := h.1 i hi
      simp only [Tree.kid] at h2
      simpa [← h2] using this
    · simpa [hij] using h.1 i hi
  · by_cases hij : i = j
    · subst hij; simpa using h1
    · simpa [hij] using h.2 i

theorem Outer.kid {t : Tree} (h : Outer t) (j : Nat) : Outer (t.kid j) := by
  cases t with
  | leaf => trivial
  | node => exact h.2 j

theorem Outer.act {t u : Tree} {a : Doing} (h : Outer t) (hf : t.act a = .ok u) : Outer u ∧ t.isLeaf = u.isLeaf := by
  cases a with
  | ev e =>
    cases e <;> simp only [Tree.act] at hf
    case txn i =>
      split at hf
      · rename_i hl
        refine h.feed (fun k hk => ?_) hf
        cases hk
        simpa [Ev.of] using hl
      · cases hf
    all_goals first
      | cases hf
      | (split at hf <;> first | exact h.feed (fun _ hk => by cases hk) hf | cases hf)
  | begin j =>
    simp only [Tree.act] at hf
    split at hf
    · exact h.put (fun v hv => (h.kid j).feed (fun _ hk => by cases hk) hv) hf
    · cases hf
  | ready j o d =>
    simp only [Tree.act] at hf; split at hf <;> first | exact h.feed (fun _ hk => by cases hk) hf | cases hf
  | notReady j =>
    simp only [Tree.act] at hf; split at hf <;> first | exact h.feed (fun _ hk => by cases hk) hf | cases hf
  | fin j o =>
    simp only [Tree.act] at hf; split at hf <;> first | exact h.feed (fun _ hk => by cases hk) hf | cases hf
  | emit j =>
    simp only [Tree.act] at hf
    split at hf
    · split at hf
      · exact h.put (fun v hv => (h.kid j).feed (fun _ hk => by cases hk) hv) hf
      · cases hf
    · cases hf
  | intr j =>
    simp only [Tree.act] at hf
    split at hf
    · split at hf
      · exact h.put (fun v hv => (h.kid j).feed (fun _ hk => by cases hk) hv) hf
      · cases hf
    · cases hf

theorem Outer.inside : ∀ (p : List Nat) {t u : Tree} {a : Doing}, Outer t → t.inside p a = .ok u →
    Outer u ∧ t.isLeaf = u.isLeaf
  | [], t, u, a, h, hf => h.act (by simpa [Tree.inside] using hf)
  | j :: p, leaf, u, a, h, hf => by simp [Tree.inside] at hf
  | j :: p, node c es kids, u, a, h, hf => by
    simp only [Tree.inside] at hf
    exact h.put (fun v hv => Outer.inside p (h.2 j) hv) hf

theorem Outer.moves : ∀ (ms : List Mv) {t u : Tree}, Outer t → t.moves ms = .ok u → Outer u
  | [], t, u, h, hf => by simp only [Tree.moves, Next.ok.injEq] at hf; exact hf ▸ h
  | m :: ms, t, u, h, hf => by
    simp only [Tree.moves] at hf
    split at hf
    · cases hf
    · cases hf
    · rename_i v hv
      refine Outer.moves ms ?_ hf
      cases m with
      | inside p a => exact (Outer.inside p h hv).1
      | begin => exact (h.feed (fun _ hk => by cases hk) hv).1
      | cancel ct => exact (h.feed (fun _ hk => by cases hk) hv).1
      | interrupt => exact (h.feed (fun _ hk => by cases hk) hv).1

/-- **C89, why it fails**: a race takes note of what its own awaitables take, but not of what those of a race below it take:
no combinator ever begins a transaction of the one that awaits it. -/
theorem C89_inner {t u : Tree} {ms : List Mv} (hf : t.Fresh) (hr : t.moves ms = .ok u) {p : List Nat} {c : Cfg}
    {es : List Ev} {kids : Nat → Tree} (hp : u.at' p = node c es kids) {i : Nat} (hi : Took c es i) :
    kids i = leaf := by
  have h := ((Outer.fresh t hf).moves ms hr).at p
  rw [hp] at h
  obtain ⟨pre, post, rfl, -⟩ := hi
  have := h.1 i (by simp)
  cases hk : kids i with
  | leaf => rfl
  | node => rw [hk] at this; cases this

example : ∃ c es kids, ((nest .race .race).moves both) = .ok end' ∧ end' = node c es kids ∧ Took c es 1 := by
  obtain ⟨h1, -, -, -, h5, h6, -⟩ := end_facts
  exact ⟨_, _, _, end_run, Tree.eta h1, took_of 5 h5 h6⟩

end Cobalt.Comb
