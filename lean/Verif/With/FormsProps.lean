import Verif.With.FormsModel
/-!
# C80: which uses of `with` compile
-/
namespace Cobalt.With.Forms

/-- What the documentation asks for: an argument that can be handed over, a function that can be
called with a reference to it and returns an object or nothing, or an awaitable of that; and any
teardown that can be called with the argument in some way, or `await_exit`. -/
structure Sensible (u : Use) : Prop where
  /-- the argument is an object of its own in `with` -/
  given : (u.lvalue = true → u.arg.copyable = true) ∧ (u.lvalue = false → u.arg.movable = true)
  /-- classes that can be copied can be moved -/
  class_ : u.arg.copyable = true → u.arg.movable = true
  func : u.func = .lref ∨ u.func = .cref ∨ u.func = .any ∨
    (u.func = .value ∧ u.arg.copyable = true)
  result : u.result ≠ .reference
  teardown : u.teardown = .third .value → u.arg.movable = true

/-- C80: every use of `with` that is documented compiles. -/
def C80 : Prop := ∀ u, Sensible u → u.compiles = true

/-- The uses that are refused: a teardown that takes the argument by `T &`, as in the documentation;
results that cannot be assigned; `await_exit` of an lvalue, or with a function that is not awaited; and
with a function that is not awaited, teardowns that take `T &&`, or `T` for a `T` that is not copyable. -/
inductive Refused (u : Use) : Prop where
  | reference : u.teardown = .third .lref → Refused u
  | result : u.result = .value false → Refused u
  | lvalueExit : u.teardown = .member → u.lvalue = true → Refused u
  | syncExit : u.teardown = .member → u.awaitable = false → Refused u
  | syncRvalue : u.teardown = .third .rref → u.awaitable = false → Refused u
  | syncValue : u.teardown = .third .value → u.awaitable = false → u.arg.copyable = false → Refused u

/-- Exactly these are. -/
theorem C80_exact (u : Use) (h : Sensible u) : u.compiles = true ↔ ¬ Refused u := by
  obtain ⟨⟨cp, mv⟩, lv, func, aw, res, tear⟩ := u
  obtain ⟨⟨g1, g2⟩, hc, hf, hr, ht⟩ := h
  have hfb : binds ⟨cp, mv⟩ true func = true := by
    rcases hf with h | h | h | ⟨h, h'⟩
    · have h : func = .lref := h
      subst h; rfl
    · have h : func = .cref := h
      subst h; rfl
    · have h : func = .any := h
      subst h; rfl
    · have h : func = .value := h
      subst h; exact h'
  have hgiven : (if lv then cp else mv) = true := by
    cases lv
    · exact g2 rfl
    · exact g1 rfl
  have hcomp : Use.compiles ⟨⟨cp, mv⟩, lv, func, aw, res, tear⟩ =
      match Use.select ⟨⟨cp, mv⟩, lv, func, aw, res, tear⟩ with
      | some o => Use.bodyOk ⟨⟨cp, mv⟩, lv, func, aw, res, tear⟩ o
      | none => false := by
    show ((if lv then cp else mv) && _) = _
    rw [hgiven]
    rfl
  rw [hcomp]
  have hmv : mv = true := by
    cases lv
    · exact g2 rfl
    · exact hc (g1 rfl)
  constructor
  · intro h' hR
    cases hR with
    | reference h1 =>
      simp only at h1; subst h1
      simp [Use.select, hfb, Use.tear, binds] at h'
    | result h1 =>
      simp only at h1; subst h1
      cases hb : binds ⟨cp, mv⟩ false (Use.tear ⟨⟨cp, mv⟩, lv, func, aw, .value false, tear⟩) with
      | false => simp [Use.select, hb] at h'
      | true => cases aw <;> simp [Use.select, hfb, hb, Use.bodyOk, resultOk] at h'
    | lvalueExit h1 h2 =>
      simp only at h1 h2; subst h1; subst h2
      simp [Use.select, hfb, Use.tear, binds] at h'
    | syncExit h1 h2 =>
      simp only at h1 h2; subst h1; subst h2
      have key : ∀ res, (match Use.select ⟨⟨cp, mv⟩, lv, func, false, res, .member⟩ with
          | some o => Use.bodyOk ⟨⟨cp, mv⟩, lv, func, false, res, .member⟩ o
          | none => false) = false := by
        intro res
        unfold Use.select
        simp only [hfb, Bool.true_and]
        cases lv <;> cases res <;> rfl
      rw [key] at h'; cases h'
    | syncRvalue h1 h2 =>
      simp only at h1 h2; subst h1; subst h2
      have key : ∀ res, (match Use.select ⟨⟨cp, mv⟩, lv, func, false, res, .third .rref⟩ with
          | some o => Use.bodyOk ⟨⟨cp, mv⟩, lv, func, false, res, .third .rref⟩ o
          | none => false) = false := by
        intro res
        unfold Use.select
        simp only [hfb, Bool.true_and]
        cases res <;> rfl
      rw [key] at h'; cases h'
    | syncValue h1 h2 h3 =>
      simp only at h1 h2 h3; subst h1; subst h2; subst h3
      subst hmv
      have key : ∀ res, (match Use.select ⟨⟨false, true⟩, lv, func, false, res, .third .value⟩ with
          | some o => Use.bodyOk ⟨⟨false, true⟩, lv, func, false, res, .third .value⟩ o
          | none => false) = false := by
        intro res
        unfold Use.select
        simp only [hfb, Bool.true_and]
        cases res <;> rfl
      rw [key] at h'; cases h'
  · intro hR
    have hres : resultOk res = true := by
      cases res with
      | void => rfl
      | value b =>
        cases b
        · exact absurd (.result rfl) hR
        · rfl
      | reference => exact absurd rfl hr
    have hm : binds ⟨cp, mv⟩ false (Use.tear ⟨⟨cp, mv⟩, lv, func, aw, res, tear⟩) = true := by
      cases tear with
      | third p =>
        cases p with
        | lref => exact absurd (.reference rfl) hR
        | value => exact hmv
        | _ => rfl
      | member =>
        cases lv
        · rfl
        · exact absurd (.lvalueExit rfl rfl) hR
    have hs : aw = false →
        binds ⟨cp, mv⟩ true (Use.tear ⟨⟨cp, mv⟩, lv, func, aw, res, tear⟩) = true := by
      intro ha
      subst ha
      cases tear with
      | third p =>
        cases p with
        | rref => exact absurd (.syncRvalue rfl rfl) hR
        | value =>
          cases cp
          · exact absurd (.syncValue rfl rfl rfl) hR
          · rfl
        | _ => rfl
      | member => exact absurd (.syncExit rfl rfl) hR
    unfold Use.select
    simp only [hfb, hm, Bool.and_self, if_true]
    cases aw with
    | true => cases res <;> simp_all [Use.bodyOk]
    | false => have := hs rfl; cases res <;> simp_all [Use.bodyOk]

example : Sensible ⟨⟨false, true⟩, false, .lref, true, .void, .member⟩ ∧
    Use.compiles ⟨⟨false, true⟩, false, .lref, true, .void, .member⟩ = true :=
  ⟨⟨by simp, by simp, by simp, by simp, by simp⟩, rfl⟩

/-- C80 for functions that are awaited, teardowns that do not take the argument by `T &`, `await_exit`
of rvalues, and results that can be assigned. Missing: the other uses, which are refused as
`C80_exact` says. -/
theorem C80_partial (u : Use) (h : Sensible u) (ha : u.awaitable = true)
    (ht : u.teardown ≠ .third .lref) (hm : u.teardown = .member → u.lvalue = false)
    (hr : u.result ≠ .value false) : u.compiles = true := by
  rw [C80_exact u h]
  intro hR
  cases hR with
  | reference h1 => exact ht h1
  | result h1 => exact hr h1
  | lvalueExit h1 h2 => rw [hm h1] at h2; cases h2
  | syncExit _ h2 => rw [ha] at h2; cases h2
  | syncRvalue _ h2 => rw [ha] at h2; cases h2
  | syncValue _ h2 => rw [ha] at h2; cases h2

/-- Without `Sensible` nothing compiles that should not: the function can be called with the argument
and the teardown with the moved argument. -/
theorem C80_only (u : Use) (h : u.compiles = true) :
    binds u.arg true u.func = true ∧ binds u.arg false u.tear = true ∧ u.result ≠ .reference := by
  unfold Use.compiles Use.select at h
  simp only [Bool.and_eq_true] at h
  obtain ⟨-, h⟩ := h
  split at h
  · rename_i o ho
    split at ho
    · rename_i hb
      refine ⟨hb.1, hb.2, fun hr => ?_⟩
      cases o <;> simp [Use.bodyOk, hr, resultOk] at h
    · cases ho
  · cases h

/-- C80 does not hold: the teardown of the documentation takes the argument as `ws_stream &`. -/
theorem C80_violated : ¬ C80 := fun h => by
  have := h ⟨⟨false, true⟩, false, .lref, true, .void, .third .lref⟩
    ⟨by simp, by simp, by simp, by simp, by simp⟩
  revert this; decide

/-- Nor for `with(resource(), function)` if the function is not awaited: the overload is chosen, but
its body gives an lvalue to `&invoke_await_exit` (with.hpp:100). -/
theorem C80_sync_violated :
    Use.select ⟨⟨false, true⟩, false, .lref, false, .void, .member⟩ = some .syncVoid ∧
    Use.compiles ⟨⟨false, true⟩, false, .lref, false, .void, .member⟩ = false := by decide

end Cobalt.With.Forms
