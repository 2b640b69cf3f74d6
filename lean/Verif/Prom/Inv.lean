import Verif.Prom.Spec
/-! The invariant behind the properties of promises. -/
namespace Cobalt.Prom

/-- A promise object and what it stands for. -/
def Fit (p : Sp) (s : St) (r : Nat) (R : Rec) : Holds → Prop
  | .none => False
  | .coro c =>
    R.ref = some c ∧
    match p.ended c with
    | none => R.done = false ∧ R.exc = none ∧ R.taken = false ∧ R.result = none ∧ s.frame c = some { receiver := some r, stuck := false }
    | some (.out (.val v)) => R.done = true ∧ R.awaited = none ∧ R.exc = none ∧
        R.result = some (if R.taken then none else some v)
    | some (.out (.exc e)) => R.done = true ∧ R.awaited = none ∧ R.exc = some (.user e)
    | some .killed => R.done = true ∧ R.awaited = none ∧ R.exc = some .unexpected
  | .ready v => R.done = true ∧ R.awaited = none ∧ R.exc = none ∧ R.ref = none ∧
      R.result = some (if R.taken then none else some v)
  | .moved => R.done = true ∧ R.awaited = none ∧ R.exc = some .movedFrom
  | .husk => R.done = true ∧ R.awaited = none ∧ R.exc = none
  | .zombie c => R.done = false ∧ R.awaited = none ∧ R.exc = some .movedFrom ∧ R.ref = some c

structure Inv (p : Sp) (s : St) : Prop where
  ub : s.ub = false
  gone : ∀ r, s.recv r = none → p.holds r = .none
  fit : ∀ r R, s.recv r = some R → Fit p s r R (p.holds r)
  frame : ∀ c f, s.frame c = some f → s.born c = true ∧
    (f.stuck = true → f.receiver = none) ∧ (f.stuck = false → p.ended c = none) ∧
    ∀ r, f.receiver = some r → p.holds r = .coro c ∧ (s.recv r).isSome = true
  unborn : ∀ c, s.born c = false → p.ended c = none ∧ ∀ r, p.holds r ≠ .coro c ∧ p.holds r ≠ .zombie c
  live : ∀ c, s.born c = true → p.ended c = none → ∃ f, s.frame c = some f ∧ f.stuck = false
  awaited : ∀ r R a, s.recv r = some R → R.awaited = some a →
    s.aw a = some { self := r, ex := none, got := none } ∧ a ∉ s.killed
  pend : ∀ a w, s.aw a = some w → w.got = none → a ∉ s.killed →
    ∃ R c, s.recv w.self = some R ∧ R.awaited = some a ∧ p.holds w.self = .coro c ∧ p.ended c = none ∧
      p.target a = .coro c
  got : ∀ a w g, s.aw a = some w → w.got = some g → Explains p a g
  log : ∀ a g, (a, g) ∈ s.log ↔ ∃ w, s.aw a = some w ∧ w.got = some g
  once : (s.log.map Prod.fst).Nodup
  killed : ∀ a, a ∈ s.killed → ∃ w, s.aw a = some w ∧ w.got = none

theorem Inv.init : Inv {} {} := by
  constructor <;> simp

theorem Explains.mono {p p' : Sp} {a : Nat} {g : Got} (h : Explains p a g)
    (ht : p'.target a = p.target a) (ha : p.asked a = true → p'.asked a = true)
    (he : ∀ c e, p.ended c = some e → p'.ended c = some e) : Explains p' a g := by
  unfold Explains at *
  rw [ht]
  rcases h with h | h
  · exact Or.inl ⟨h.1, ha h.2⟩
  · right
    cases hp : p.target a <;> rw [hp] at h <;> simp only at h ⊢ <;> try exact h
    rcases h with h | ⟨e, h1, h2⟩
    · exact Or.inl h
    · exact Or.inr ⟨e, he _ _ h1, h2⟩

end Cobalt.Prom
