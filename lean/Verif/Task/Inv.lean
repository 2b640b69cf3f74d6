import Verif.Task.Spec
/-! The invariant behind the properties of tasks. -/
namespace Cobalt.Task

open Prom (Err Out Got End fits upd upd_apply)

/-- The result stored for an outcome. -/
def Gives (R : Rec) : End → Prop
  | .out (.val v) => R.exc = none ∧ R.result = some (if R.taken then none else some v)
  | .out (.exc e) => R.exc = some (.user e)
  | .killed => R.exc = some .unexpected

structure Inv (p : Sp) (s : St) : Prop where
  ub : s.ub = false
  here : ∀ r R, s.recv r = some R → p.holds r ≠ .none
  prom : ∀ r R c, s.recv r = some R → p.holds r = .coro c → R.prom = some c
  going : ∀ r R c, s.recv r = some R → p.holds r = .coro c → p.ended c = none →
    R.done = false ∧ R.exc = none ∧ R.taken = false ∧ s.frame c = some ⟨some r, p.begun c, false⟩
  over : ∀ r R c e, s.recv r = some R → p.holds r = .coro c → p.ended c = some e →
    R.done = true ∧ R.awaited = none ∧ Gives R e
  ready : ∀ r R v, s.recv r = some R → p.holds r = .ready v →
    R.done = true ∧ R.awaited = none ∧ R.exc = none ∧ R.result = some (if R.taken then none else some v)
  moved : ∀ r R, s.recv r = some R → p.holds r = .moved → R.done = true ∧ R.awaited = none ∧ R.exc = some .movedFrom
  husk : ∀ r R, s.recv r = some R → p.holds r = .husk → R.done = true ∧ R.awaited = none ∧ R.exc = none
  frame : ∀ c f, s.frame c = some f → s.born c = true ∧ f.started = p.begun c ∧
    (f.stuck = true → f.receiver = none) ∧ (f.stuck = false → p.ended c = none)
  back : ∀ c f r, s.frame c = some f → f.receiver = some r → p.holds r = .coro c ∧ (s.recv r).isSome = true
  unborn : ∀ c, s.born c = false → p.ended c = none ∧ p.begun c = false
  unheld : ∀ c r, s.born c = false → p.holds r ≠ .coro c
  live : ∀ c, s.born c = true → p.ended c = none → ∃ f, s.frame c = some f ∧ f.stuck = false
  waits : ∀ r R a, s.recv r = some R → R.awaited = some a →
    s.aw a = some ⟨r, decide (R.owner ≠ none), false, none, none⟩ ∧ a ∉ s.killed
  tgt : ∀ r R a c, s.recv r = some R → R.awaited = some a → p.holds r = .coro c → p.target a = .coro c
  begunW : ∀ r R a c, s.recv r = some R → R.awaited = some a → R.owner = none → p.holds r = .coro c → p.begun c = true
  owned : ∀ r R a, s.recv r = some R → R.owner = some a →
    (∃ c, p.holds r = .coro c ∧ p.target a = .coro c) ∧ a ∉ s.killed ∧ R.taken = false ∧
    ((R.awaited = some a ∧ R.done = false) ∨ R.done = true ∧ s.aw a = some ⟨r, true, true, none, none⟩)
  queue : ∀ c, s.queue c = true → p.begun c = false ∧ p.ended c = none ∧
    ∃ r R, s.frame c = some ⟨some r, false, false⟩ ∧ s.recv r = some R ∧ R.owner ≠ none
  pend : ∀ a w, s.aw a = some w → w.got = none → a ∉ s.killed → w.posted = false →
    w.ready = none ∧ ∃ R, s.recv w.self = some R ∧ R.awaited = some a ∧ (R.owner = none ∨ R.owner = some a)
  posted : ∀ a w, s.aw a = some w → w.got = none → w.posted = true → w.spawned = true ∧ a ∉ s.killed
  postR : ∀ a w g, s.aw a = some w → w.got = none → w.posted = true → w.ready = some g → Explains p a g
  postN : ∀ a w, s.aw a = some w → w.got = none → w.posted = true → w.ready = none →
    ∃ R, s.recv w.self = some R ∧ R.owner = some a ∧ R.done = true
  got : ∀ a w g, s.aw a = some w → w.got = some g → Explains p a g
  log : ∀ a g, (a, g) ∈ s.log ↔ ∃ w, s.aw a = some w ∧ w.got = some g
  once : (s.log.map Prod.fst).Nodup
  killed : ∀ a, a ∈ s.killed → ∃ w, s.aw a = some w ∧ w.got = none
  slain : ∀ a w, a ∈ s.killed → s.aw a = some w → w.spawned = true →
    ∃ c, p.target a = .coro c ∧ p.ended c = some .killed
  starts : ∀ c, s.starts c = if p.begun c then 1 else 0

theorem Inv.init : Inv {} {} := by
  constructor <;> simp

/-- One more entry in the log. -/
theorem logCons {l : List (Nat × Got)} {aw aw' : Nat → Option Aw} {a : Nat} {g : Got} {w : Aw}
    (h : ∀ b g, (b, g) ∈ l ↔ ∃ w, aw b = some w ∧ w.got = some g) (hl : ∀ g, (a, g) ∉ l)
    (hw : w.got = some g) (h1 : aw' a = some w) (h2 : ∀ b, b ≠ a → aw' b = aw b) (b : Nat) (g' : Got) :
    (b, g') ∈ (a, g) :: l ↔ ∃ w, aw' b = some w ∧ w.got = some g' := by
  simp only [List.mem_cons, Prod.mk.injEq]
  by_cases hb : b = a
  · subst hb
    rw [h1]
    simp only [true_and, hl g', or_false, Option.some.injEq, exists_eq_left', hw]
    exact eq_comm
  · rw [h2 b hb, h b g']
    simp [hb]

theorem onceCons {l : List (Nat × Got)} {a : Nat} {g : Got} (h : (l.map Prod.fst).Nodup) (hl : ∀ g, (a, g) ∉ l) :
    (((a, g) :: l).map Prod.fst).Nodup := by
  simp only [List.map_cons, List.nodup_cons, h, and_true, List.mem_map, Prod.exists, exists_and_right,
    exists_eq_right, not_exists]
  exact hl

theorem Explains.mono {p p' : Sp} {a : Nat} {g : Got} (h : Explains p a g)
    (ht : p'.target a = p.target a) (ha : p.asked a = true → p'.asked a = true)
    (he : ∀ c e, p.ended c = some e → p'.ended c = some e) : Explains p' a g := by
  unfold Explains at *
  rw [ht]
  rcases h with h | h
  · exact Or.inl ⟨h.1, ha h.2⟩
  · right
    cases hp : p.target a <;> rw [hp] at h <;> simp only at h ⊢ <;> try exact h
    obtain ⟨e, h1, h2⟩ := h
    exact ⟨e, he _ _ h1, h2⟩

end Cobalt.Task
