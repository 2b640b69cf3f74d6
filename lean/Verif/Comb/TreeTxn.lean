import Verif.Comb.TreeProps
/-! # C89: what a race takes from a channel reaches the awaiter

A read of a channel in a race takes the value only if the race has no winner yet: it begins a
transaction first (channel.hpp, race.hpp:196-203), and from then on it is the winner. So in one race
at most one awaitable takes a value, and that value is the result of the race (`C89_one`,
`C89_single_partial`). For races of races this fails: the transaction ends at the innermost race
(fork.hpp:87-99 asks the promise of the child coroutine, whose race awaits nothing from the one above).
While the inner one, having a winner, waits for the awaitables it has cancelled, an awaitable of the
outer one may begin a transaction too. Then two values are taken, and one of them is lost
(`C89_violated`, `C89_lost_violated`). -/
namespace Cobalt.Comb

open Tree

/-- Awaitable `i` of a race began a transaction, which did not throw. -/
def Took (c : Cfg) (es : List Ev) (i : Nat) : Prop :=
  ∃ pre post, es = pre ++ .txn i :: post ∧ (St.run c pre).index = none

/-- In an expression made of races only, at most one awaitable takes a value. -/
def C89 : Prop := ∀ (t u : Tree) (ms : List Mv), t.Fresh → t.moves ms = .ok u →
  (∀ p c es kids, u.at' p = node c es kids → c.kind = .race) →
  ∀ p c es kids q c' es' kids' i j, u.at' p = node c es kids → u.at' q = node c' es' kids' →
    Took c es i → Took c' es' j → p = q ∧ i = j

theorem legal_pre {c : Cfg} : ∀ (pre post : List Ev) {s : St}, Legal c s (pre ++ post) → Legal c s pre
  | [], _, _, _ => trivial
  | _ :: pre, post, _, h => ⟨h.1, legal_pre pre post h.2⟩

theorem ub_pre {c : Cfg} (pre post : List Ev) (h : (St.run c (pre ++ post)).ub = false) : (St.run c pre).ub = false := by
  cases hx : (St.run c pre).ub
  · rfl
  · have := steps_ub (c := c) post hx
    rw [show St.steps c (St.run c pre) post = St.run c (pre ++ post) by simp [St.run, St.steps], h] at this
    cases this

/-- Who takes a value has won. -/
theorem Took.winner {c : Cfg} {es : List Ev} {i : Nat} (hn : Node c es) (hk : c.kind = .race) (h : Took c es i) :
    winner es = some i := by
  obtain ⟨pre, post, rfl, h1⟩ := h
  have h2 := (All.run hn.ok (legal_pre pre _ hn.legal) (ub_pre pre _ hn.ub)).hist.race hk
  rw [h1] at h2
  have h3 : pre ++ Ev.txn i :: post = (pre ++ [.txn i]) ++ post := by simp
  unfold Comb.winner at h2 ⊢
  rw [List.filterMap_append, List.head?_append, ← h2, List.filterMap_cons]
  rfl

/-- In each race, wherever it is, at most one awaitable takes a value. -/
theorem C89_one {t u : Tree} {ms : List Mv} (hf : t.Fresh) (hr : t.moves ms = .ok u) {p : List Nat} {c : Cfg}
    {es : List Ev} {kids : Nat → Tree} (hp : u.at' p = node c es kids) (hk : c.kind = .race) {i j : Nat}
    (hi : Took c es i) (hj : Took c es j) : i = j := by
  have h := at_good p (moves_good ms (fresh_good t hf) hr)
  rw [hp] at h
  have h1 := hi.winner h.1 hk
  rw [hj.winner h.1 hk] at h1
  exact (Option.some.inj h1).symm

/-- And what it takes is what the race gives. -/
theorem C89_single_partial {t u : Tree} {ms : List Mv} (hf : t.Fresh) (hr : t.moves ms = .ok u) {p : List Nat} {c : Cfg}
    {es : List Ev} {kids : Nat → Tree} (hp : u.at' p = node c es kids) (hk : c.kind = .race)
    (hv : ∀ i, c.void i = false) (ho : (St.run c es).over) {i : Nat} (hi : Took c es i) :
    ∃ o, outcome es i = some o ∧
      (∀ v, o = .ok v → (St.run c es).resume c = .winner i (if c.allVoid then none else some v)) ∧
      ∀ e, o = .err e → (St.run c es).resume c = .thrown e := by
  have h := at_good p (moves_good ms (fresh_good t hf) hr)
  rw [hp] at h
  obtain ⟨j, o, h1, h2, h3, h4⟩ :=
    C18_race_partial h.1.ok hk h.1.legal h.1.ub ho (fun i hi => by rw [hv i] at hi; cases hi)
  have h5 := hi.winner h.1 hk
  rw [h5] at h1
  cases h1
  exact ⟨o, h2, h3, h4⟩

/-- `race(race(a, b), c)`: `a` takes a value and wins the inner race, which waits for `b`; `c` takes a
value and wins the outer one; then `b` is done. -/
def both : List Mv := opening ++
  [.inside [0] (.ev (.txn 0)), .inside [0] (.ev (.ret false)), .inside [0] (.ev (.ret false)),
    .inside [0] (.ev (.ret false)), .inside [0] (.ev (.fin 0 (.ok 1))), .inside [0] (.ev (.ret false)),
    .inside [0] (.ev (.ret false)), .inside [] (.ev (.txn 1)), .inside [] (.ev (.ret false)),
    .inside [] (.ev (.ret false)), .inside [] (.ev (.ret false)), .inside [] (.ev (.fin 1 (.ok 2))),
    .inside [] (.ev (.ret false)), .inside [] (.ev (.ret false)), .inside [0] (.ev (.fin 1 (.err 9))),
    .inside [0] (.ev (.ret false)), .inside [] (.fin 0 (.ok 1)), .inside [] (.ev (.ret false))]

def Tree.hist : Tree → List Ev
  | leaf => []
  | node _ es _ => es

def Tree.cfg : Tree → Cfg
  | leaf => two .race
  | node c _ _ => c

theorem Tree.eta {t : Tree} (h : t.isLeaf = false) : t = node t.cfg t.hist t.kid := by
  cases t with
  | leaf => cases h
  | node c es kids => rfl

theorem Tree.Next.ok_get {n : Next} (h : n.get.isLeaf = false) : n = .ok n.get := by
  cases n <;> first | rfl | cases h

theorem took_of {c : Cfg} {es : List Ev} {i : Nat} (k : Nat) (h1 : es = es.take k ++ .txn i :: es.drop (k + 1))
    (h2 : (St.run c (es.take k)).index = none) : Took c es i := ⟨_, _, h1, h2⟩

/-- Where that ends. -/
def end' : Tree := ((nest .race .race).moves both).get

set_option maxRecDepth 20000 in
theorem end_facts : end'.isLeaf = false ∧ (end'.at' [0]).isLeaf = false ∧ end'.cfg.kind = .race ∧ end'.over ∧
    end'.hist = end'.hist.take 5 ++ .txn 1 :: end'.hist.drop 6 ∧
    (St.run end'.cfg (end'.hist.take 5)).index = none ∧
    (end'.at' [0]).hist = (end'.at' [0]).hist.take 5 ++ .txn 0 :: (end'.at' [0]).hist.drop 6 ∧
    (St.run (end'.at' [0]).cfg ((end'.at' [0]).hist.take 5)).index = none ∧
    outcome (end'.at' [0]).hist 0 = some (.ok 1) ∧
    (St.run end'.cfg end'.hist).resume end'.cfg = .winner 1 (some 2) := by decide

theorem end_run : (nest .race .race).moves both = .ok end' := Next.ok_get end_facts.1

/-- The value `1`, taken by `a`, is lost: the awaiter gets `2`. -/
theorem C89_lost_violated : ∃ (ms : List Mv) (u : Tree), (nest .race .race).moves ms = .ok u ∧ u.over ∧
    (∃ c es kids, u.at' [0] = node c es kids ∧ Took c es 0 ∧ outcome es 0 = some (.ok 1)) ∧
    ∃ c es kids, u = node c es kids ∧ Took c es 1 ∧ (St.run c es).resume c = .winner 1 (some 2) := by
  obtain ⟨h1, h2, -, h4, h5, h6, h7, h8, h9, h10⟩ := end_facts
  exact ⟨both, end', end_run, h4, ⟨_, _, _, Tree.eta h2, took_of 5 h7 h8, h9⟩, _, _, _, Tree.eta h1, took_of 5 h5 h6, h10⟩

theorem C89_violated : ¬C89 := by
  intro h
  have hk : Kinds .race (nest .race .race) := by
    refine ⟨rfl, fun j => ?_⟩
    by_cases hj : j = 0
    · simp only [hj, if_true]; exact ⟨rfl, fun _ => trivial⟩
    · simp only [hj, if_false]; trivial
  obtain ⟨h1, h2, -, -, h5, h6, h7, h8, -, -⟩ := end_facts
  have := (h _ _ both (nest_fresh _ _) end_run (fun p c es kids hp => by
      have := (Kinds.moves both hk end_run).at p
      rw [hp] at this; exact this.1)
    [] _ _ _ [0] _ _ _ 1 0 (Tree.eta h1) (Tree.eta h2) (took_of 5 h5 h6) (took_of 5 h7 h8)).1
  cases this

end Cobalt.Comb
