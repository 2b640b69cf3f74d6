import Verif.Prom.Spec
/-! Deciding `TidyRun` for the examples. -/
namespace Cobalt.Prom

def St.freeB (s : St) (r : Nat) : Bool :=
  match s.recv r with
  | some R => R.awaited == none
  | none => true

theorem St.free_of {s : St} {r : Nat} (h : s.freeB r = true) : s.free r := by
  intro R hR
  simpa [St.freeB, hR] using h

def Holds.zombieB : Holds → Bool
  | .zombie _ => true
  | _ => false

theorem Holds.zombie_of {h : Holds} (hz : h.zombieB = false) (c : Nat) : h ≠ .zombie c := by
  rintro rfl; simp [Holds.zombieB] at hz

def Sp.safeB (p : Sp) (r : Nat) : Bool :=
  match p.holds r with
  | .zombie c => p.ended c == none
  | _ => true

theorem Sp.safe_of {p : Sp} {r : Nat} (h : p.safeB r = true) : p.safe r := by
  intro c hc
  simpa [Sp.safeB, hc] using h

def tidyB (p : Sp) (s : St) : Ev → Bool
  | .await _ r => p.holds r != .husk && !(p.holds r).zombieB
  | .get r => p.holds r != .husk && !(p.holds r).zombieB &&
      (match p.holds r with
       | .coro c => p.ended c != none
       | _ => true)
  | .interrupt a =>
    match s.aw a with
    | some w => (match s.recv w.self with
      | some R => R.awaited == none || R.awaited == some a
      | none => true)
    | none => true
  | .moveC r _ => s.freeB r && !(p.holds r).zombieB
  | .moveA r r' => s.freeB r && s.freeB r' && !(p.holds r').zombieB &&
      (match p.holds r with
       | .coro c => p.ended c == none
       | .ready _ => true
       | _ => false)
  | .drop r => s.freeB r && p.safeB r
  | .leave r => p.safeB r
  | .cancel r => p.safeB r
  | _ => true

theorem tidy_of {p : Sp} {s : St} {e : Ev} (h : tidyB p s e = true) : Tidy p s e := by
  cases e <;> simp only [tidyB, Tidy, Bool.and_eq_true, Bool.not_eq_true', bne_iff_ne, ne_eq] at h ⊢
  case await => exact ⟨h.1, Holds.zombie_of h.2⟩
  case get =>
    refine ⟨h.1.1, Holds.zombie_of h.1.2, fun c hc => ?_⟩
    have := h.2; rw [hc] at this; simpa using this
  case interrupt =>
    intro w R b h1 h2 h3
    rw [h1] at h; simp only [h2] at h; rw [h3] at h; simpa using h
  case moveC => exact ⟨St.free_of h.1, Holds.zombie_of h.2⟩
  case moveA r r' =>
    refine ⟨St.free_of h.1.1.1, St.free_of h.1.1.2, Holds.zombie_of h.1.2, ?_⟩
    have := h.2
    cases hh : p.holds r <;> rw [hh] at this <;> simp at this
    · exact Or.inl ⟨_, rfl, this⟩
    · exact Or.inr ⟨_, rfl⟩
  case drop => exact ⟨St.free_of h.1, Sp.safe_of h.2⟩
  case leave => exact Sp.safe_of h
  case cancel => exact Sp.safe_of h

def tidyRunB : Sp → St → List Ev → Bool
  | _, _, [] => true
  | p, s, e :: es => s.can e && tidyB p s e && tidyRunB (p.step e) (s.step e) es

theorem tidyRun_of : ∀ {es : List Ev} {p : Sp} {s : St}, tidyRunB p s es = true → TidyRun p s es := by
  intro es
  induction es with
  | nil => intros; trivial
  | cons e es ih =>
    intro p s h
    simp only [tidyRunB, Bool.and_eq_true] at h
    exact ⟨h.1.1, tidy_of h.1.2, ih h.2⟩

end Cobalt.Prom
