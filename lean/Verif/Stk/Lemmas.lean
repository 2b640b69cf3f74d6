import Verif.Stk.Spec
import Mathlib.Data.List.Nodup
/-! Helper: the invariant of the stack. -/
namespace Cobalt.Stk

/-- The coroutines on the stack that have not left. -/
def here (fs : List Fr) : List Nat := (fs.filter fun f => !f.left).map Fr.co

theorem here_unwind (fs : List Fr) : here (unwind fs) = here fs := by
  induction fs with
  | nil => rfl
  | cons f fs ih =>
    unfold unwind
    split
    · rename_i h; rw [ih]; simp [here, h]
    · rfl

theorem here_leave (ctx : Nat → Bool) (c : Nat) (fs : List Fr) : here (leave ctx c fs) = here fs := by
  unfold leave; split <;> simp [here]

theorem here_cons (c : Nat) (fs : List Fr) : here (⟨c, false⟩ :: fs) = c :: here fs := by simp [here]

structure SI (s : St) : Prop where
  nd : (here s.stack).Nodup
  busy : ∀ c, c ∈ here s.stack ↔ s.stat c = .busy
  lt : ∀ c, s.made ≤ c → s.stat c = .absent
  top : ∀ f fs, s.stack = f :: fs → f.left = false

theorem unwind_top (fs : List Fr) : ∀ f gs, unwind fs = f :: gs → f.left = false := by
  induction fs with
  | nil => intro f gs h; cases h
  | cons f fs ih =>
    intro g gs h
    unfold unwind at h
    split at h
    · exact ih g gs h
    · rename_i hf; injection h with h1 h2; subst h1; simpa using hf

theorem upd_eq {α : Type} (f : Nat → α) (i : Nat) (x : α) : upd f i x i = x := by simp [upd]
theorem upd_ne {α : Type} (f : Nat → α) {i j : Nat} (x : α) (h : j ≠ i) : upd f i x j = f j := by simp [upd, h]

variable {ctx : Nat → Bool} {s : St}

/-- The newest activation is of `d`, which was not busy. -/
theorem SI.push {fs : List Fr} {st : Nat → Stat} {d m : Nat} (hn : (here fs).Nodup) (hb : ∀ c, c ∈ here fs ↔ st c = .busy)
    (hd : st d ≠ .busy) (hl : ∀ c, m ≤ c → st c = .absent) (hm : d < m) :
    SI { stack := ⟨d, false⟩ :: fs, stat := upd st d .busy, made := m } := by
  refine ⟨?_, fun c => ?_, fun c hc => ?_, fun f gs h => ?_⟩
  · rw [here_cons]
    exact List.nodup_cons.2 ⟨fun h => hd ((hb d).1 h), hn⟩
  · rw [here_cons, List.mem_cons, hb c]
    by_cases e : c = d
    · subst e; simp [upd_eq]
    · show _ ↔ upd st d .busy c = .busy
      rw [upd_ne _ _ e]; simp [e]
  · show upd st d .busy c = .absent
    dsimp only at hc
    rw [upd_ne _ _ (by omega)]; exact hl c hc
  · injection h with h1 h2; rw [← h1]

/-- The newest activation goes. -/
theorem SI.pop (i : SI s) {f : Fr} {fs : List Fr} (h : s.stack = f :: fs) {x : Stat} (hx : x ≠ .busy) :
    (here fs).Nodup ∧ (∀ c, c ∈ here fs ↔ upd s.stat f.co x c = .busy) ∧
    ∀ c, s.made ≤ c → upd s.stat f.co x c = .absent := by
  have hf := i.top f fs h
  have hs : here s.stack = f.co :: here fs := by rw [h]; cases f; simp only at hf; subst hf; exact here_cons _ _
  have hn := i.nd
  rw [hs] at hn
  obtain ⟨h1, h2⟩ := List.nodup_cons.1 hn
  have hb : s.stat f.co = .busy := (i.busy f.co).1 (by rw [hs]; exact List.mem_cons_self)
  refine ⟨h2, fun c => ?_, fun c hc => ?_⟩
  · by_cases e : c = f.co
    · rw [e, upd_eq]; exact ⟨fun h => absurd h h1, fun h => absurd h hx⟩
    · rw [upd_ne _ _ e, ← i.busy c, hs]; simp [e]
  · have : c ≠ f.co := fun e => by rw [← e, i.lt c hc] at hb; cases hb
    rw [upd_ne _ _ this]; exact i.lt c hc

theorem SI.lt' (i : SI s) {c : Nat} (h : s.stat c ≠ .absent) : c < s.made := by
  apply Classical.byContradiction
  intro hc; exact h (i.lt c (by omega))

theorem SI.hand (i : SI s) {f : Fr} {fs : List Fr} (h : s.stack = f :: fs) {x : Stat} (hx : x ≠ .busy) {d : Nat}
    (hd : s.stat d = .susp) : SI { s with stack := ⟨d, false⟩ :: leave ctx f.co fs, stat := upd (upd s.stat f.co x) d .busy } := by
  obtain ⟨h1, h2, h3⟩ := i.pop h hx
  have hb : s.stat f.co = .busy := (i.busy f.co).1 (by
    have hf := i.top f fs h
    rw [h]; cases f; simp only at hf; subst hf; rw [here_cons]; exact List.mem_cons_self)
  have hne : d ≠ f.co := fun e => by rw [e, hb] at hd; cases hd
  refine SI.push (by rw [here_leave]; exact h1) (fun c => by rw [here_leave]; exact h2 c) ?_ h3 (i.lt' (by rw [hd]; simp))
  rw [upd_ne _ _ hne, hd]; simp

theorem SI.away (i : SI s) {f : Fr} {fs : List Fr} (h : s.stack = f :: fs) {x : Stat} (hx : x ≠ .busy) :
    SI { s with stack := unwind fs, stat := upd s.stat f.co x } := by
  obtain ⟨h1, h2, h3⟩ := i.pop h hx
  exact ⟨by dsimp only; rw [here_unwind]; exact h1, fun c => by dsimp only; rw [here_unwind]; exact h2 c, h3, unwind_top fs⟩

theorem SI.step (i : SI s) (e : Ev) : SI (s.step ctx e) := by
  cases e with
  | exec d =>
    simp only [St.step]
    split
    · rename_i h
      have := i.busy
      rw [h.1] at this
      exact SI.push (fs := []) List.nodup_nil this (by rw [h.2]; simp) i.lt (i.lt' (by rw [h.2]; simp))
    · exact i
  | create =>
    have h := i.lt s.made (Nat.le_refl _)
    exact SI.push i.nd i.busy (by rw [h]; simp) (fun c hc => i.lt c (by omega)) (Nat.lt_succ_self _)
  | call d =>
    simp only [St.step]
    split
    · rename_i h
      exact SI.push i.nd i.busy (by rw [h.2]; simp) i.lt (i.lt' (by rw [h.2]; simp))
    · exact i
  | transfer d =>
    simp only [St.step]
    split
    · rename_i f fs h
      split
      · rename_i hd; exact i.hand h (by simp) hd
      · exact i
    · exact i
  | refuse =>
    simp only [St.step]
    split
    · rename_i f fs h
      have hf := i.top f fs h
      have hs : here s.stack = f.co :: here fs := by rw [h]; cases f; simp only at hf; subst hf; exact here_cons _ _
      have hh : here (⟨f.co, false⟩ :: leave ctx f.co fs) = here s.stack := by rw [here_cons, here_leave, hs]
      refine ⟨by dsimp only; rw [hh]; exact i.nd, fun c => by dsimp only; rw [hh]; exact i.busy c, i.lt, fun g gs hg => ?_⟩
      injection hg with h1 h2; rw [← h1]
    · exact i
  | suspend =>
    simp only [St.step]
    split
    · rename_i f fs h; exact i.away h (by simp)
    · exact i
  | finish =>
    simp only [St.step]
    split
    · rename_i f fs h; exact i.away h (by simp)
    · exact i
  | finishTo d =>
    simp only [St.step]
    split
    · rename_i f fs h
      split
      · rename_i hd; exact i.hand h (by simp) hd
      · exact i
    · exact i

theorem SI.init : SI {} := ⟨List.nodup_nil, fun c => by simp [here], fun _ _ => rfl, fun f fs h => by cases h⟩

theorem SI.steps (i : SI s) (es : List Ev) : SI (s.steps ctx es) := by
  induction es generalizing s with
  | nil => exact i
  | cons e es ih => exact ih (i.step e)

theorem SI.run (ctx : Nat → Bool) (es : List Ev) : SI (run ctx es) := SI.init.steps es

theorem length_here (fs : List Fr) : fs.length = (here fs).length + fs.countP (·.left) := by
  induction fs with
  | nil => rfl
  | cons f fs ih =>
    cases hf : f.left with
    | true => simp only [here, List.length_cons, List.filter_cons, hf, List.countP_cons] at ih ⊢; simp at ih ⊢; omega
    | false => simp only [here, List.length_cons, List.filter_cons, hf, List.countP_cons] at ih ⊢; simp at ih ⊢; omega

theorem SI.count (i : SI s) : (here s.stack).length = s.busy := by
  unfold St.busy
  rw [List.countP_eq_length_filter]
  apply List.Perm.length_eq
  rw [List.perm_ext_iff_of_nodup i.nd (List.Nodup.filter _ List.nodup_range)]
  intro c
  rw [i.busy c, List.mem_filter, List.mem_range]
  simp only [decide_eq_true_eq]
  exact ⟨fun h => ⟨i.lt' (by rw [h]; simp), h⟩, fun h => h.2⟩

theorem busy_le_live (s : St) : s.busy ≤ s.live := by
  apply List.countP_mono_left
  intro c _ h
  simp only [decide_eq_true_eq] at h
  simp [h]

theorem unwind_lefts (fs : List Fr) : (unwind fs).countP (·.left) ≤ fs.countP (·.left) := by
  induction fs with
  | nil => exact Nat.le_refl _
  | cons f fs ih =>
    unfold unwind
    split
    · rw [List.countP_cons]; omega
    · exact Nat.le_refl _

theorem leave_lefts (ctx : Nat → Bool) (c : Nat) (fs : List Fr) :
    (leave ctx c fs).countP (·.left) = fs.countP (·.left) + if ctx c then 1 else 0 := by
  unfold leave; split <;> simp

theorem step_lefts (i : SI s) (e : Ev) : (s.step ctx e).lefts ≤ s.lefts + if s.nests ctx e then 1 else 0 := by
  have drop : ∀ f fs, s.stack = f :: fs → s.stack.countP (·.left) = fs.countP (·.left) := by
    intro f fs h; rw [h, List.countP_cons, i.top f fs h]; simp
  unfold St.lefts
  cases e with
  | exec d =>
    simp only [St.step]
    split
    · rw [List.countP_cons]; simp
    · omega
  | create => simp only [St.step]; rw [List.countP_cons]; simp
  | call d =>
    simp only [St.step]
    split
    · rw [List.countP_cons]; simp
    · omega
  | transfer d =>
    simp only [St.step]
    split
    · rename_i f fs h
      split
      · rename_i hd
        rw [List.countP_cons, leave_lefts, ← drop f fs h]
        simp [St.nests, h, hd]
      · omega
    · omega
  | refuse =>
    simp only [St.step]
    split
    · rename_i f fs h
      rw [List.countP_cons, leave_lefts, ← drop f fs h]
      simp [St.nests, h]
    · omega
  | suspend =>
    simp only [St.step]
    split
    · rename_i f fs h
      have := unwind_lefts fs
      rw [drop f fs h]; dsimp only; omega
    · omega
  | finish =>
    simp only [St.step]
    split
    · rename_i f fs h
      have := unwind_lefts fs
      rw [drop f fs h]; dsimp only; omega
    · omega
  | finishTo d =>
    simp only [St.step]
    split
    · rename_i f fs h
      split
      · rename_i hd
        rw [List.countP_cons, leave_lefts, ← drop f fs h]
        simp [St.nests, h, hd]
      · omega
    · omega

theorem steps_lefts (i : SI s) (es : List Ev) : (s.steps ctx es).lefts ≤ s.lefts + nestings ctx s es := by
  induction es generalizing s with
  | nil => simp [St.steps, nestings]
  | cons e es ih =>
    have h1 := step_lefts (ctx := ctx) i e
    have h2 := ih (i.step (ctx := ctx) e)
    show ((s.step ctx e).steps ctx es).lefts ≤ _
    simp only [nestings]
    omega

end Cobalt.Stk
