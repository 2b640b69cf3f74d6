import Verif.Task.Spec
/-! Deciding `TidyRun` for the examples. -/
namespace Cobalt.Task

def St.freeB (s : St) (r : Nat) : Bool :=
  match s.recv r with
  | some R => R.awaited == none
  | none => true

theorem St.free_of {s : St} {r : Nat} (h : s.freeB r = true) : s.free r := by
  intro R hR
  simpa [St.freeB, hR] using h

def startable (p : Sp) (r : Nat) : Bool :=
  match p.holds r with
  | .husk => false
  | .coro c => !p.begun c || p.ended c != none
  | _ => true

theorem startable_of {p : Sp} {r : Nat} (h : startable p r = true) :
    p.holds r ≠ .husk ∧ ∀ c, p.holds r = .coro c → p.begun c = true → p.ended c ≠ none := by
  unfold startable at h
  refine ⟨fun hx => by simp [hx] at h, fun c hc hb he => ?_⟩
  simp [hc, hb, he] at h

def tidyB (p : Sp) (s : St) : Ev → Bool
  | .await _ r | .spawn _ r _ => startable p r
  | .interrupt a =>
    match s.aw a with
    | some w => (match s.recv w.self with
      | some R => R.awaited == some a
      | none => true)
    | none => true
  | .moveC r _ | .drop r => s.freeB r
  | _ => true

theorem tidy_of {p : Sp} {s : St} {e : Ev} (h : tidyB p s e = true) : Tidy p s e := by
  cases e <;> simp only [tidyB, Tidy] at h ⊢
  case await => exact startable_of h
  case spawn => exact startable_of h
  case interrupt =>
    intro w R h1 h2
    rw [h1] at h; simp only [h2] at h; simpa using h
  case moveC => exact St.free_of h
  case drop => exact St.free_of h

def tidyRunB : Sp → St → List Ev → Bool
  | _, _, [] => true
  | p, s, e :: es => s.can e && tidyB p s e && tidyRunB (p.step e) (s.step e) es

theorem tidyRun_of : ∀ {es : List Ev} {p : Sp} {s : St}, tidyRunB p s es = true → TidyRun p s es := by
  intro es
  induction es with
  | nil => intros; trivial
  | cons e es ih =>
    intro p s h
    simp only [tidyRunB, Bool.and_eq_true] at h
    exact ⟨h.1.1, tidy_of h.1.2, ih h.2⟩

end Cobalt.Task
