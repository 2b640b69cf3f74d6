import Verif.BufVal.Runs
/-!
# C126: buffer sequences are values

include/boost/cobalt/io/buffer.hpp:23-105, 225-345, 470-503, include/boost/cobalt/io/ops.hpp:24-93.
-/
namespace Cobalt.BufVal

open Io (Buf)

/-- **C126**, exactly: a program is defined if and only if every event reads the member of the union that was written
last, and no event reads an array that is gone. -/
theorem C126_exact (c : Cfg) (es : List Ev) :
    (exec c es).ub = false ↔ All Active (St.init c) es ∧ All Reads (St.init c) es :=
  steps_ub_iff es rfl

/-- **C126**, as far as the code goes, for any build: a defined program that does not assign a buffer some sequence
refers to gives the operations what it means.

What is missing from `C126` are the conditions; see `C126_exact` and `C126_put_violated`. -/
theorem C126_value_partial (c : Cfg) (es : List Ev) (hu : (exec c es).ub = false) (hs : All Still (St.init c) es) :
    given (exec c es) = expected c es :=
  (Rel.steps es (Rel.init c) hu hs).log

/-- **C126**, as far as the code goes: without io_uring, or if the compiler reads the union as gcc does, a program that
keeps its arrays as they are is defined and gives the operations what it means.

What is missing from `C126` are the conditions; without them see `C126_gone_violated`, `C126_put_violated` and
`C126_union_violated`. -/
theorem C126_partial (c : Cfg) (hc : Lax c) (es : List Ev) (hk : es.all Keeps = true) :
    (exec c es).ub = false ∧ given (exec c es) = expected c es := by
  refine run_all (J := fun s _ => AllThere s ∧ Lax s.cfg) (Q := Keeps) ?_ ?_ es (Rel.init c)
    ⟨fun a ha => absurd ha (by simp [St.init]), hc⟩ rfl hk
  · intro s p e h hj hu hq
    have ht : ∀ v, There s (s.v v) := fun v h0 => hj.1 _ (h.old v h0)
    refine ⟨lax_active hj.2 e, ?_, ?_⟩
    · cases e <;> simp only [Reads] <;> first | exact ht _ | exact fun _ => ht _
    · cases e <;> simp only [Still]
      simp [Keeps] at hq
  · intro s p e h hj hu hq
    exact ⟨allThere_step hj.1 hu e hq, by rw [cfg_step]; exact hj.2⟩

/-- **C126**, as far as the code goes: sequences of one buffer are values, whatever happens to any array, without
io_uring, or if the compiler reads the union as gcc does.

What is missing from `C126` are the conditions, as in `C126_partial`. -/
theorem C126_single_partial (c : Cfg) (hc : Lax c) (es : List Ev) (hk : es.all Single = true) :
    (exec c es).ub = false ∧ given (exec c es) = expected c es := by
  refine run_all (J := fun s _ => (∀ v, (s.v v).tail.len = 0) ∧ Lax s.cfg) (Q := Single) ?_ ?_ es (Rel.init c)
    ⟨fun v => rfl, hc⟩ rfl hk
  · intro s p e h hj hu hq
    have ht : ∀ v, There s (s.v v) := fun v h0 => absurd (hj.1 v) h0
    refine ⟨lax_active hj.2 e, ?_, ?_⟩
    · cases e <;> simp only [Reads] <;> first | exact ht _ | exact fun _ => ht _
    · cases e <;> simp only [Still]
      intro v _ hx
      have := hj.1 v
      omega
  · intro s p e h hj hu hq
    exact ⟨single_step hj.1 hu e hq, by rw [cfg_step]; exact hj.2⟩

/-- With io_uring, and the standard taken at its word: a sequence made of a buffer can be neither copied nor looked
at, wherever this happens; one made of a registered buffer cannot be advanced. Every operation copies its sequence
(ops.hpp:33, 43). -/
theorem C126_union_violated (es : List Ev) (v w n id : Nat) (b : Buf) :
    (exec ⟨true, true⟩ (es ++ [.plain v b, .copy w v])).ub = true ∧
    (exec ⟨true, true⟩ (es ++ [.plain v b, .use v])).ub = true ∧
    (exec ⟨true, true⟩ (es ++ [.reg v id b, .adv v n])).ub = true := by
  have hc : ∀ (es : List Ev) (s : St), (s.steps es).cfg = s.cfg := by
    intro es
    induction es with
    | nil => exact fun _ => rfl
    | cons e es ih => exact fun s => (ih _).trans (cfg_step s e)
  have hc : (exec ⟨true, true⟩ es).cfg = ⟨true, true⟩ := hc es _
  have key : ∀ e1 e2, ((exec ⟨true, true⟩ es).ub = false → (((exec ⟨true, true⟩ es).step e1).step e2).ub = true) →
      (exec ⟨true, true⟩ (es ++ [e1, e2])).ub = true := by
    intro e1 e2 h
    unfold exec at h ⊢
    rw [steps_append]
    cases hu : ((St.init ⟨true, true⟩).steps es).ub with
    | true => rw [steps_ub hu]; exact hu
    | false => exact h hu
  generalize exec ⟨true, true⟩ es = s at *
  refine ⟨key _ _ fun hu => ?_, key _ _ fun hu => ?_, key _ _ fun hu => ?_⟩
  · simp [St.step, St.act, hu, hc, Cfg.regOk, upd_apply, St.fail]
  · simp [St.step, St.act, hu, hc, Cfg.regOk, upd_apply, St.fail, St.visit]
  · simp [St.step, St.act, hu, hc, Cfg.headOk, upd_apply, St.fail, St.advance]

/-- **C126**, what is left with io_uring if the standard is taken at its word: registered buffers that are made, copied
and looked at, and never advanced. This holds in any build.

What is missing from `C126` is everything else; see `C126_union_violated`. -/
theorem C126_registered_partial (c : Cfg) (es : List Ev) (hr : es.all Registered = true) (hm : Made [] es) :
    (exec c es).ub = false ∧ given (exec c es) = expected c es := by
  have key : ∀ (es : List Ev) (s : St) (p : Spec) (seen : List Nat), Rel s p → Regs s seen → s.ub = false →
      es.all Registered = true → Made seen es →
      (s.steps es).ub = false ∧ given (s.steps es) = (p.steps es).log := by
    intro es
    induction es with
    | nil => exact fun s p _ h _ hu _ _ => ⟨hu, h.log⟩
    | cons e es ih =>
      intro s p seen h hg hu hq hm
      simp only [List.all_cons, Bool.and_eq_true] at hq
      have ht : ∀ v, There s (s.v v) := fun v h0 => absurd (hg.one v) h0
      have hstill : Still s e := by
        cases e <;> simp only [Still]
        intro v _ hx
        have := hg.one v
        omega
      have go : ∀ seen', (Active s e ∧ Reads s e) → Regs (s.step e) seen' → Made seen' es →
          ((s.step e).steps es).ub = false ∧ given ((s.step e).steps es) = ((p.step e).steps es).log := by
        intro seen' hf hg' hm'
        have hu' := (step_ub_iff hu e).2 hf
        exact ih _ _ seen' (h.step hu e hstill hu') hg' hu' hq.2 hm'
      cases e with
      | array bs => exact go seen ⟨trivial, trivial⟩ (by rw [step_eq hu]; exact ⟨hg.one, hg.reg⟩) hm
      | gone a => exact go seen ⟨trivial, trivial⟩ (by rw [step_eq hu]; exact ⟨hg.one, hg.reg⟩) hm
      | put a i b => exact go seen ⟨trivial, trivial⟩ (by rw [step_eq hu]; exact ⟨hg.one, hg.reg⟩) hm
      | reg v i b =>
        refine go (v :: seen) ⟨trivial, trivial⟩ ?_ hm
        rw [step_eq hu]
        refine hg.set v _ rfl fun hc => ?_
        have : i ≠ 0 := by simpa [Registered] using hq.1
        simp [hc, this]
      | plain v b => simp [Registered] at hq
      | span v a => simp [Registered] at hq
      | adv v n => simp [Registered] at hq
      | copy v w =>
        obtain ⟨h1, h2⟩ := hm
        refine go (v :: seen) ⟨fun hc _ => (hg.reg hc w h1).1, trivial⟩ ?_ h2
        have hok : s.cfg.regOk (s.v w) = true := by
          cases hc : s.cfg.uring with
          | false => simp [Cfg.regOk, hc]
          | true => simp [Cfg.regOk, (hg.reg hc w h1).1]
        rw [step_eq hu]
        simp only [St.act, hok, Bool.not_true, Bool.false_eq_true, if_false]
        refine hg.set v _ ?_ fun hc => ?_
        · unfold Cfg.dup; split <;> exact hg.one w
        · simp [Cfg.dup, hc, (hg.reg hc w h1).2]
      | use v =>
        obtain ⟨h1, h2⟩ := hm
        refine go seen ⟨fun hc _ => ?_, ht v⟩ ?_ h2
        · rw [if_pos (hg.one v)]; exact hg.reg hc v h1
        · have : (s.step (.use v)).v = s.v ∧ (s.step (.use v)).cfg = s.cfg := by
            refine ⟨?_, cfg_step _ _⟩
            rw [step_eq hu]
            dsimp only [St.act, St.visit, St.fail]
            split
            · split
              · rfl
              · split <;> rfl
            · split
              · rfl
              · split
                · rfl
                · split <;> rfl
          exact ⟨by rw [this.1]; exact hg.one, by rw [this.1, this.2]; exact hg.reg⟩
  exact key es _ _ [] (Rel.init c) ⟨fun _ => rfl, fun _ v hv => absurd hv (by simp)⟩ rfl hr hm

/-- An operation made of two buffers in an array, kept, and started when the array is gone:
`auto op = stream.read_some(std::array{b, b'}); co_await op;`. -/
def late : List Ev := [.array [⟨10, 2⟩, ⟨30, 3⟩], .span 0 0, .copy 1 0, .gone 0, .use 1]

/-- **C126** does not hold, in no build: the operation reads an array that is gone. -/
theorem C126_gone_violated (c : Cfg) : (exec c late).ub = true := by
  obtain ⟨u, t⟩ := c
  cases u <;> cases t <;> rfl

/-- The program assigns another buffer to the array before it starts the operation. -/
def changed : List Ev := [.array [⟨10, 2⟩, ⟨30, 3⟩], .span 0 0, .copy 1 0, .put 0 1 ⟨50, 1⟩, .use 1]

/-- **C126** does not hold: the copy has changed. The first buffer is kept, the second is not. -/
theorem C126_put_violated : (exec ⟨false, false⟩ changed).ub = false ∧
    given (exec ⟨false, false⟩ changed) = [(1, [10, 11, 50], 0)] ∧
    expected ⟨false, false⟩ changed = [(1, [10, 11, 30, 31, 32], 0)] := by decide

theorem C126_violated : ¬ C126 := by
  intro h
  have h1 := (h ⟨false, false⟩ late).1
  rw [C126_gone_violated] at h1
  cases h1

/-- Registered and plain buffers, an array of three, copies and advances. -/
def usual : List Ev :=
  [.array [⟨10, 2⟩, ⟨50, 0⟩, ⟨30, 3⟩], .span 0 0, .copy 1 0, .adv 1 3, .use 1, .use 0, .reg 2 7 ⟨70, 4⟩, .copy 3 2,
   .adv 3 1, .use 3, .plain 4 ⟨90, 2⟩, .copy 3 4, .use 3, .use 2]

example : usual.all Keeps = true ∧ Lax ⟨true, false⟩ ∧ expected ⟨true, false⟩ usual =
    [(1, [31, 32], 0), (0, [10, 11, 30, 31, 32], 0), (3, [71, 72, 73], 7), (3, [90, 91], 0),
     (2, [70, 71, 72, 73], 7)] := by
  refine ⟨by decide, by simp [Lax], by decide⟩

example : All Still (St.init ⟨false, false⟩) (usual ++ [.gone 0, .use 2]) ∧
    (exec ⟨false, false⟩ (usual ++ [.gone 0, .use 2])).ub = false := by
  refine ⟨?_, by decide⟩
  simp [usual, All, Still]

def registered : List Ev := [.reg 0 7 ⟨10, 2⟩, .copy 1 0, .use 1, .reg 0 8 ⟨20, 1⟩, .use 0, .use 1]

example : registered.all Registered = true ∧ Made [] registered ∧ registered.all Single = true ∧
    expected ⟨true, true⟩ registered = [(1, [10, 11], 7), (0, [20], 8), (1, [10, 11], 7)] := by
  refine ⟨by decide, ?_, by decide, by decide⟩
  simp [registered, Made]

end Cobalt.BufVal
