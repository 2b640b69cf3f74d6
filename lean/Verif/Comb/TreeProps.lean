import Verif.Comb.TreeLemmas
/-! # C88: combinators of combinators

What holds for one combinator holds for expressions like `gather(join(a, b), race(c, d))` as a whole:
the awaiter goes on once, when nothing below is running any more; it goes on as soon as that is the
case; an exception it sees comes from one of the awaitables at the leaves, and where there are only
`join`s every failure there is seen. All of this is proved for every tree, of any depth, and all runs
without undefined behaviour; and there is none as long as nothing completes inside a cancellation or
interruption that is being forwarded. That condition is needed: `C88_violated`. -/
namespace Cobalt.Comb

open Tree

/-- The whole of it. -/
def C88 : Prop := ∀ (t : Tree) (ms : List Mv), t.Fresh →
  t.moves ms ≠ .ub ∧ ∀ u, t.moves ms = .ok u → u.over →
    ∀ p c es kids, u.at' p = node c es kids → ∀ i, ((St.run c es).child i).active = false

/-- When the root lets its awaiter go on, no awaitable is being awaited anywhere below. -/
theorem C88_over {t u : Tree} {ms : List Mv} (hf : t.Fresh) (hr : t.moves ms = .ok u) (ho : u.over)
    {p : List Nat} {c : Cfg} {es : List Ev} {kids : Nat → Tree} (hp : u.at' p = node c es kids) :
    (es = [] ∨ (St.run c es).over) ∧ ∀ i, ((St.run c es).child i).active = false := by
  have hg := moves_good ms (fresh_good t hf) hr
  have h1 := at_rests p hg (Or.inl ho) (by rw [hp]; rfl)
  have h2 := at_good p hg
  rw [hp] at h1 h2
  refine ⟨?_, (rests_node h2 h1).1⟩
  rcases h1 with h | h
  · exact Or.inr h
  · left; simpa [begun] using h

/-- Without a `race` in the tree, every awaitable at a leaf has completed then. -/
theorem C88_all {t u : Tree} {ms : List Mv} (hf : t.Fresh) (hr : t.moves ms = .ok u) (ho : u.over)
    (hk : ∀ p c es kids, u.at' p = node c es kids → c.kind ≠ .race) :
    ∀ p, u.Arg p → ∀ c es kids, u.at' p = node c es kids →
      (St.run c es).over ∧ ∀ i, i < c.n → (outcome es i).isSome = true := by
  have hg := moves_good ms (fresh_good t hf) hr
  clear hr hf
  intro p
  induction p generalizing u with
  | nil =>
    intro _ c es kids h
    have h0 : u = node c es kids := by cases u <;> exact h
    subst h0
    exact ⟨ho, (C13_all_done hg.1.ok hg.1.legal hg.1.ub ho).1 (hk [] _ _ _ rfl)⟩
  | cons j p ih =>
    cases u with
    | leaf => intro h; exact absurd h (by simp [Arg])
    | node c' es' kids' =>
      intro ha c es kids h
      simp only [at'] at h
      have hdone := (C13_all_done hg.1.ok hg.1.legal hg.1.ub ho).1 (hk [] _ _ _ rfl) j ha.1
      have hl : (kids' j).isLeaf = false := by
        cases hx : kids' j with
        | leaf => rw [hx, at_leaf] at h; cases h
        | node => rfl
      obtain ⟨o, ho'⟩ := Option.isSome_iff_exists.1 hdone
      obtain ⟨e, h1, h2⟩ := ends_of_outcome ho'
      exact ih (((hg.2 j).1 hl).told e h1 o h2).1 (fun q => hk (j :: q)) (hg.2 j).2 ha.2 c es kids h

/-- Nobody is forgotten: as long as the awaiter of the root is suspended, and all calls have returned,
an awaitable at a leaf is being waited for. -/
theorem C88_waits {t u : Tree} {ms : List Mv} (hf : t.Fresh) (hr : t.moves ms = .ok u) (hq : u.Quiet)
    (hb : u.begun = true) (ho : ¬u.over) :
    ∃ p c es kids i, u.at' p = node c es kids ∧ (kids i).isLeaf = true ∧ i < c.n ∧
      (St.run c es).child i = .waiting := by
  have hg := moves_good ms (fresh_good t hf) hr
  clear hr hf
  induction u with
  | leaf => cases hb
  | node c es kids ih =>
    have hst : (St.run c es).stack = [] := (hq [] c es kids rfl).1
    have htags : (St.run c es).tags = [] := by simp [St.tags, hst]
    have hi := hg.1.inv
    have hph : (St.run c es).phase = .suspended := by
      cases hx : (St.run c es).phase with
      | before => rw [hg.1.before.1 hx] at hb; cases hb
      | starting => have := hi.starts; rw [htags, if_pos hx] at this; simp at this
      | suspended => rfl
      | resumed => exact absurd (Or.inl hx) ho
      | direct => exact absurd (Or.inr hx) ho
    obtain ⟨i, hn, ha⟩ := (C13_resume_once hg.1.ok hg.1.legal hg.1.ub).2.2.1 hph
    have hw : (St.run c es).child i = .waiting := by
      cases hx : (St.run c es).child i with
      | idle => rw [hx] at ha; cases ha
      | asking => have := (hi.asking i).1 hx; rw [htags] at this; cases this
      | waiting => rfl
      | running => have := (hi.running i).1 hx; rw [htags] at this; cases this
      | finished => rw [hx] at ha; cases ha
    cases hl : (kids i).isLeaf
    · have hk := (hg.2 i).1 hl
      have hno : ¬(kids i).over := by
        intro hov
        have h1 := (hq [] c es kids rfl).2 i hov
        have h2 := (All.run hg.1.ok hg.1.legal hg.1.ub).hist.ended i
        rw [h1, hw] at h2; cases h2
      obtain ⟨p, c', es', kids', i', h1, h2⟩ :=
        ih i (fun q c es kids hq' => hq (i :: q) c es kids hq') (hk.waits hw) hno (hg.2 i).2
      exact ⟨i :: p, c', es', kids', i', h1, h2⟩
    · exact ⟨[], c, es, kids, i, rfl, hl, hn, hw⟩

/-- Every awaiter is resumed at most once. -/
theorem C88_once {t u : Tree} {ms : List Mv} (hf : t.Fresh) (hr : t.moves ms = .ok u)
    {p : List Nat} {c : Cfg} {es : List Ev} {kids : Nat → Tree} (hp : u.at' p = node c es kids) :
    (St.run c es).resumes ≤ 1 := by
  have h := at_good p (moves_good ms (fresh_good t hf) hr)
  rw [hp] at h
  exact (C13_resume_once h.1.ok h.1.legal h.1.ub).1

/-- What the root throws, an awaitable at a leaf has thrown. -/
theorem C88_thrown {t u : Tree} {ms : List Mv} (hf : t.Fresh) (hr : t.moves ms = .ok u) {x : Nat}
    (hx : u.gives (.err x) = true) :
    ∃ p c es kids, u.at' p = node c es kids ∧ ∃ e ∈ es, ∃ i, e.ends = some (i, .err x) ∧ (kids i).isLeaf = true := by
  have hg := moves_good ms (fresh_good t hf) hr
  clear hr hf
  induction u with
  | leaf => cases hx
  | node c es kids ih =>
    have herr := (resume_thrown (gives_thrown hx)).1
    obtain ⟨e, h1, i, h2⟩ := hg.1.err_from herr
    cases hl : (kids i).isLeaf
    · obtain ⟨p, h3⟩ := ih i (((hg.2 i).1 hl).told e h1 _ h2).2 (hg.2 i).2
      exact ⟨i :: p, h3⟩
    · exact ⟨[], c, es, kids, rfl, e, h1, i, h2, hl⟩

theorem join_throws {c : Cfg} {es : List Ev} {kids : Nat → Tree} (hg : (node c es kids).Good) (hk : c.kind = .join)
    (ho : (node c es kids).over) {e : Ev} (he : e ∈ es) {i x : Nat} (hx : e.ends = some (i, .err x)) :
    ∃ y, (node c es kids).gives (.err y) = true := by
  cases hf : firstErr es with
  | some y =>
    refine ⟨y, ?_⟩
    simp [gives, (C15_join hg.1.ok hk hg.1.legal hg.1.ub ho).1 y hf]
  | none =>
    exfalso
    unfold firstErr at hf
    rw [List.findSome?_eq_none_iff] at hf
    have := hf (i, .err x) (List.mem_filterMap.2 ⟨e, he, hx⟩)
    simp at this

theorem gives_err {t : Tree} {x : Nat} {o : Out} (h : t.gives (.err x) = true) (h' : t.gives o = true) : ∃ y, o = .err y := by
  cases t with
  | leaf => cases h
  | node c es kids =>
    cases o with
    | err y => exact ⟨y, rfl⟩
    | ok v =>
      simp only [gives] at h h'
      cases hr : (St.run c es).resume c <;> rw [hr] at h h' <;> simp_all

/-- In a tree of `join`s every failure at a leaf is seen by the awaiter of the root. -/
theorem C88_join {t u : Tree} {ms : List Mv} (hf : t.Fresh) (hr : t.moves ms = .ok u) (ho : u.over)
    (hk : ∀ p c es kids, u.at' p = node c es kids → c.kind = .join) :
    (∃ x, u.gives (.err x) = true) ↔ ∃ p c es kids, u.at' p = node c es kids ∧
      ∃ e ∈ es, ∃ i x, e.ends = some (i, .err x) ∧ (kids i).isLeaf = true := by
  constructor
  · rintro ⟨x, hx⟩
    obtain ⟨p, c, es, kids, h1, e, h2, i, h3, h4⟩ := C88_thrown hf hr hx
    exact ⟨p, c, es, kids, h1, e, h2, i, x, h3, h4⟩
  · rintro ⟨p, c, es, kids, h1, e, h2, i, x, h3, -⟩
    have hg := moves_good ms (fresh_good t hf) hr
    clear hr hf
    induction p generalizing u with
    | nil =>
      have h0 : u = node c es kids := by cases u <;> exact h1
      subst h0
      exact join_throws hg (hk [] _ _ _ rfl) ho h2 h3
    | cons j p ih =>
      cases u with
      | leaf => cases h1
      | node c' es' kids' =>
        simp only [at'] at h1
        have hl : (kids' j).isLeaf = false := by
          cases hx : kids' j with
          | leaf => rw [hx, at_leaf] at h1; cases h1
          | node => rfl
        have hrest := (rests_node hg (Or.inl ho)).2 j hl
        have hlink := (hg.2 j).1 hl
        rcases hrest with hov | hnb
        · obtain ⟨y, hy⟩ := ih hov (fun q => hk (j :: q)) h1 (hg.2 j).2
          -- the parent was told
          have hch : (St.run c' es').child j ≠ .idle := by
            apply hlink.later
            cases hx : kids' j with
            | leaf => rw [hx] at hl; cases hl
            | node c2 es2 k2 =>
              rw [hx] at hov
              cases es2 with
              | nil => rcases hov with h | h <;> cases h
              | cons => rfl
          have hact := (rests_node hg (Or.inl ho)).1 j
          have hend := (All.run hg.1.ok hg.1.legal hg.1.ub).hist.ended j
          have hsome : (outcome es' j).isSome = true := by
            rw [← hend]
            cases hc : (St.run c' es').child j <;> simp_all [CS.active, CS.ended]
          obtain ⟨o, hoo⟩ := Option.isSome_iff_exists.1 hsome
          obtain ⟨e', h4, h5⟩ := ends_of_outcome hoo
          obtain ⟨z, rfl⟩ := gives_err hy (hlink.told e' h4 o h5).2
          exact join_throws hg (hk [] _ _ _ rfl) ho h4 h5
        · -- a combinator that was not begun has no events below
          exfalso
          have hrr : ((kids' j).at' p).rests := at_rests p (hg.2 j).2 (Or.inr hnb) (by rw [h1]; rfl)
          have hnot : ∀ (p : List Nat) (t : Tree), t.Good → t.begun = false → (t.at' p).begun = false := by
            intro p
            induction p with
            | nil => intro t _ h; cases t <;> exact h
            | cons k p ih =>
              intro t hg hb
              cases t with
              | leaf => rfl
              | node c es kids =>
                cases es with
                | cons => cases hb
                | nil =>
                  refine ih (kids k) (hg.2 k).2 ?_
                  cases hbk : (kids k).begun
                  · rfl
                  · cases hlk : (kids k).isLeaf
                    · exact absurd rfl (((hg.2 k).1 hlk).later hbk)
                    · cases hx : kids k with
                      | leaf => rw [hx] at hbk; cases hbk
                      | node => rw [hx] at hlk; cases hlk
          have := hnot p _ (hg.2 j).2 hnb
          rw [h1] at this
          cases es with
          | nil => cases h2
          | cons => cases this

/-- A `gather` at the root throws nothing. -/
theorem C88_gather {u : Tree}
    (hk : ∀ c es kids, u = node c es kids → c.kind = .gather) (x : Nat) : u.gives (.err x) = false := by
  cases u with
  | leaf => rfl
  | node c es kids =>
    cases hx : (node c es kids).gives (.err x)
    · rfl
    · exact absurd (hk c es kids rfl) (resume_thrown (gives_thrown hx)).2

/-- There is no undefined behaviour if nothing completes while the combinator that awaits it is
forwarding a cancellation or an interruption. -/
theorem C88_defined {t : Tree} {ms : List Mv} (hf : t.Fresh) (hp : t.Posted ms = true) : t.moves ms ≠ .ub :=
  moves_sound ms (fresh_good t hf) (fresh_sound t hf) hp

/-- All of it, for completions that are posted. -/
theorem C88_partial (t : Tree) (ms : List Mv) (hf : t.Fresh) (hp : t.Posted ms = true) :
    t.moves ms ≠ .ub ∧ ∀ u, t.moves ms = .ok u → u.over →
      ∀ p c es kids, u.at' p = node c es kids → ∀ i, ((St.run c es).child i).active = false :=
  ⟨C88_defined hf hp, fun _ hr ho _ _ _ _ h => (C88_over hf hr ho h).2⟩

/-! ## Examples -/

/-- `outer(inner(a, b), c)` -/
def nest (outer inner : Kind) : Tree :=
  node (two outer) [] fun j => if j = 0 then node (two inner) [] (fun _ => leaf) else leaf

theorem nest_fresh (k l : Kind) : (nest k l).Fresh := by
  refine ⟨two_ok k, by simp [two], rfl, fun j => ?_⟩
  by_cases hj : j = 0
  · simp only [hj, if_true]; exact ⟨two_ok l, by simp [two], rfl, fun _ => trivial⟩
  · simp only [hj, if_false]; trivial

def Tree.Next.isUb : Next → Bool
  | .ub => true
  | _ => false

def Tree.Next.get : Next → Tree
  | .ok t => t
  | _ => leaf

/-- Everything starts, and has to wait. -/
def opening : List Mv :=
  [.begin, .inside [] (.begin 0), .inside [0] (.ev (.notReady 0)), .inside [0] (.ev (.ret false)),
    .inside [0] (.ev (.notReady 1)), .inside [0] (.ev (.ret false)), .inside [] (.notReady 0),
    .inside [] (.ev (.ret false)), .inside [] (.ev (.notReady 1)), .inside [] (.ev (.ret false))]

/-- `join(join(a, b), c)`: `b` fails, `a` is cancelled, the inner one fails, `c` is cancelled, the
outer one fails. -/
def failing : List Mv := opening ++
  [.inside [0] (.ev (.fin 1 (.err 5))), .inside [0] (.ev (.fin 0 (.err 9))), .inside [0] (.ev (.ret false)),
    .inside [] (.fin 0 (.err 5)), .inside [] (.ev (.fin 1 (.err 9))), .inside [] (.ev (.ret false))]

set_option maxRecDepth 10000 in
example : (nest .join .join).Posted failing = true ∧ ((nest .join .join).moves failing).isUb = false ∧ ((nest .join .join).moves failing).get.over ∧
    ((nest .join .join).moves failing).get.gives (.err 5) = true := by decide

set_option maxRecDepth 10000 in
/-- All suspended, and quiet. -/
example : ((nest .gather .race).moves opening).get.begun = true ∧ ¬((nest .gather .race).moves opening).get.over := by
  decide

/-- `race(gather(a, b), c)`: `b` is done, then `c` completes, and the race cancels the `gather`. That
cancels `a`, which completes at once, as a channel does: the `gather` resumes the coroutine of the
race that awaits it, which destroys it. The loop that has sent the signal goes on nevertheless. -/
def bad : List Mv := opening ++
  [.inside [0] (.ev (.fin 1 (.ok 1))), .inside [] (.ev (.fin 1 (.ok 2))), .inside [] (.ev (.ret false)),
    .inside [] (.ev (.ret false)), .inside [] (.emit 0), .inside [0] (.ev (.fin 0 (.err 3))),
    .inside [] (.fin 0 (.ok 0))]

set_option maxRecDepth 10000 in
theorem C88_violated : ¬C88 := by
  intro h
  have h1 := (h (nest .race .gather) (bad ++ [.inside [0] (.ev (.ret false))]) (nest_fresh _ _)).1
  have h2 : ((nest .race .gather).moves (bad ++ [.inside [0] (.ev (.ret false))])).isUb = true := by decide
  revert h1 h2
  cases (nest .race .gather).moves (bad ++ [.inside [0] (.ev (.ret false))]) <;> simp [Next.isUb]

end Cobalt.Comb
