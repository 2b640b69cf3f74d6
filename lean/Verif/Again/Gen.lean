import Verif.Gen.Model
import Verif.Again.Run
/-! Generators as sources (detail/generator.hpp:179-328). -/
namespace Cobalt.Again

open Comb (Cfg)

/-- What the coroutine of a generator does (Gen/Model.lean). -/
inductive Body where
  | initial
  | yield (v : Nat)
  | ret (v : Nat)
  | throw (e : Nat)
  /-- the executor resumes it -/
  | run
deriving DecidableEq, Repr

def Body.ev : Body → Gen.Ev
  | .initial => .initial
  | .yield v => .yield v
  | .ret v => .ret v
  | .throw e => .throw e
  | .run => .run

/-- Exceptions as numbers. -/
def errCode : Gen.Err → Nat
  | .detached => 0
  | .alreadyAwaited => 1
  | .unexpected => 2
  | .returnedVoid => 3
  | .movedFrom => 4
  | .user e => e + 5

theorem errCode_inj {e e' : Gen.Err} (h : errCode e = errCode e') : e = e' := by
  cases e <;> cases e' <;> simp_all [errCode] <;> omega

def genOut : Gen.Got → Comb.Out
  | .val v => .ok v
  | .err e => .err (errCode e)

/-- A generator. -/
@[reducible] def gen : Src where
  σ := Gen.St
  β := Body
  γ := Gen.Got
  can s b := s.can b.ev
  act s b := s.step b.ev
  ask s a p := s.await a p
  intr s a := s.interrupt a
  ub := Gen.St.ub
  waits := Gen.St.awaited
  log := Gen.St.log
  out := genOut
  cut g := g == .err .detached

/-- `await_resume` hands over something. -/
theorem resumeAw_gen (s : Gen.St) (a : Nat) (hu : (s.resumeAw a).ub = false) :
    ∃ g, (s.resumeAw a).log = (a, g) :: s.log ∧ (s.resumeAw a).awaited = s.awaited := by
  unfold Gen.St.resumeAw Gen.St.takeResult Gen.St.give at hu ⊢
  split
  · rename_i h; simp [h] at hu
  · rename_i w h
    simp only [h] at hu
    split
    · exact ⟨_, rfl, rfl⟩
    · rename_i h1
      simp only [h1] at hu
      split
      · exact ⟨_, rfl, rfl⟩
      · rename_i h2
        simp only [h2] at hu
        split
        · exact ⟨_, rfl, rfl⟩
        · rename_i h3
          simp only [h3] at hu
          split
          · rename_i h4
            rw [if_pos h4] at hu
            split
            · rename_i h5; rw [if_pos h5] at hu; simp at hu
            · exact ⟨_, rfl, rfl⟩
          · exact ⟨_, rfl, rfl⟩

/-- `wake` concerns the awaiter, if there is one. -/
theorem wake_gen {s s' : Gen.St} (hl : s'.log = s.log) (hw : s'.awaited = s.awaited) (hu : s'.wake.ub = false) :
    gen.Stays s s'.wake ∨ ∃ a g, s.awaited = some a ∧ gen.Gives s s'.wake a g := by
  unfold Gen.St.wake at hu ⊢
  rw [hw] at hu ⊢
  cases ha : s.awaited with
  | none => exact Or.inl ⟨hl, hw⟩
  | some a =>
    right
    rw [ha] at hu
    obtain ⟨g, h1, h2⟩ := resumeAw_gen _ a hu
    exact ⟨a, g, rfl, h1.trans (congrArg _ hl), h2⟩

theorem bodyResume_gen (s : Gen.St) : s.bodyResume.log = s.log ∧ s.bodyResume.awaited = s.awaited := by
  unfold Gen.St.bodyResume; split <;> exact ⟨rfl, rfl⟩

theorem put_gen (s : Gen.St) (v : Nat) : (s.put v).log = s.log ∧ (s.put v).awaited = s.awaited := by
  unfold Gen.St.put; split
  · exact ⟨rfl, rfl⟩
  · split <;> exact ⟨rfl, rfl⟩

theorem suspend_gen {s s' : Gen.St} (hl : s'.log = s.log) (hw : s'.awaited = s.awaited) (hu : s'.suspend.ub = false) :
    gen.Stays s s'.suspend ∨ ∃ a g, s.awaited = some a ∧ gen.Gives s s'.suspend a g := by
  unfold Gen.St.suspend at hu ⊢
  split
  · exact Or.inl ⟨hl, hw⟩
  · rename_i h1
    rw [if_neg h1] at hu
    split
    · exact Or.inl ⟨(bodyResume_gen s').1.trans hl, (bodyResume_gen s').2.trans hw⟩
    · rename_i h2
      rw [if_neg h2] at hu
      exact wake_gen (s' := { s' with phase := .parked }) hl hw hu

theorem gen_ok : gen.Ok fun _ => True := by
  constructor
  · intro s b _ hu hc ht
    refine ⟨trivial, ?_⟩
    have hn : ¬(s.ub || !s.can b.ev) = true := by
      have hu : s.ub = false := hu
      have hc : s.can b.ev = true := hc
      simp [hu, hc]
    show gen.Stays s (s.step b.ev) ∨ ∃ a g, s.awaited = some a ∧ gen.Gives s (s.step b.ev) a g
    have ht : (s.step b.ev).ub = false := ht
    unfold Gen.St.step at ht ⊢
    rw [if_neg hn] at ht ⊢
    cases b with
    | initial =>
      dsimp only [Body.ev] at ht ⊢
      refine suspend_gen ?_ ?_ ht <;> split <;> rfl
    | yield v =>
      dsimp only [Body.ev] at ht ⊢
      split
      · rename_i h1
        rw [if_pos h1] at ht
        split
        · rename_i h2; rw [if_pos h2] at ht; rw [h2] at ht; simp at ht
        · rename_i h2
          rw [if_neg h2] at ht
          exact suspend_gen (put_gen s v).1 (put_gen s v).2 ht
      · rename_i h1
        rw [if_neg h1] at ht
        exact suspend_gen rfl rfl ht
    | ret v =>
      dsimp only [Body.ev] at ht ⊢
      split
      · rename_i h1
        rw [if_pos h1] at ht
        split
        · rename_i h2; rw [if_pos h2] at ht; rw [h2] at ht; simp at ht
        · rename_i h2
          rw [if_neg h2] at ht
          unfold Gen.St.finish at ht ⊢
          exact wake_gen (s' := { s.put v with phase := .gone, done := true }) (put_gen s v).1 (put_gen s v).2 ht
      · exact Or.inl ⟨rfl, rfl⟩
    | throw e =>
      dsimp only [Body.ev] at ht ⊢
      split
      · rename_i h1
        rw [if_pos h1] at ht
        unfold Gen.St.finish at ht ⊢
        exact wake_gen (s := s) rfl rfl ht
      · exact Or.inl ⟨rfl, rfl⟩
    | run =>
      dsimp only [Body.ev] at ht ⊢
      split
      · exact Or.inl ⟨(bodyResume_gen s).1, (bodyResume_gen s).2⟩
      · exact Or.inl ⟨rfl, rfl⟩
  · intro s a p _ hu hw ht
    refine ⟨trivial, ?_⟩
    show ((s.await a p).log = s.log ∧ (s.await a p).awaited = some a) ∨ ∃ g, gen.Gives s (s.await a p) a g
    have ht : (s.await a p).ub = false := ht
    have hw : s.awaited = none := hw
    unfold Gen.St.await at ht ⊢
    dsimp only at ht ⊢
    split
    · rename_i h1
      rw [if_pos h1] at ht
      obtain ⟨g, h2, h3⟩ := resumeAw_gen _ a ht
      exact Or.inr ⟨g, h2, h3.trans hw⟩
    · rename_i h1
      rw [if_neg h1] at ht
      rw [if_neg (by simp [hw])] at ht ⊢
      left
      split
      · split
        · exact ⟨(bodyResume_gen _).1, (bodyResume_gen _).2⟩
        · exact ⟨rfl, rfl⟩
      · split
        · exact ⟨(bodyResume_gen _).1, (bodyResume_gen _).2⟩
        · exact ⟨rfl, rfl⟩
  · intro s a _ hu hw ht
    refine ⟨trivial, .err .detached, rfl, ?_⟩
    have ht : (s.interrupt a).ub = false := ht
    have hw : s.awaited = some a := hw
    show gen.Gives s (s.interrupt a) a _
    unfold Gen.St.interrupt at ht ⊢
    split
    · rename_i h; simp [h] at ht
    · rename_i w h
      unfold Gen.St.wake
      simp only [hw]
      unfold Gen.St.resumeAw
      simp only [Prom.upd_apply, if_true]
      exact ⟨rfl, rfl⟩

/-- Generators at the beginning: their coroutines run. `void i`: `Push` of generator `i`
is `void`. -/
def gens (void : Nat → Bool) : St gen := { src := fun i => { void := void i } }

theorem gens_start (void : Nat → Bool) : Start (fun _ => True) (gens void) :=
  ⟨fun _ => ⟨trivial, rfl, rfl, rfl⟩, rfl, rfl, rfl, rfl, rfl⟩

end Cobalt.Again
