import Verif.Tree.Wind
/-!
# C113: trees of coroutines that are cancelled or abandoned

Full statement: whatever the coroutines do and whenever the first one is cancelled or its promise destroyed, nothing
undefined happens, no coroutine is destroyed while it still runs, the frame of every coroutine that has ended is freed, and
no exception leaves the executor. `C113_violated`: the last two fail if a coroutine throws when its promise has been
destroyed; `C113_exact`: only then.
-/
namespace Cobalt.Tree
open Prom (Out upd)

/-- The first coroutine starts another and ends; the other waits for an operation and throws when this is cancelled. -/
def thrower : Prog where
  act := fun a h => match a, h with
    | 0, [] => .start 1
    | 0, _ => .fin (.val 0)
    | _, [] => .op 7
    | _, _ => .fin (.exc 5)
  op := id

def throwing : List Ev := [.go 0, .go 1, .go 0, .complete 1 true, .go 1]

/-- The frame of a coroutine that has ended is never freed; the exception has left the executor. -/
theorem C113_violated : ∃ N a es c e, (run N a es).pos c = .ended (.exc e) ∧
    ∃ f, (run N a es).prom.frame c = some f ∧ f.stuck = true :=
  ⟨thrower, 0, throwing, 1, 5, by decide, _, rfl, by decide⟩

/-- Nothing undefined happens and no coroutine is destroyed that still runs. Missing from the full statement: the frames
and the exceptions, see `C113_exact`. -/
theorem C113_partial (N : Prog) (a : Nat) (es : List Ev) :
    (run N a es).prom.ub = false ∧ (run N a es).prom.killed = [] := by
  obtain ⟨ph, i⟩ := TI.run N a es
  exact ⟨i.ps.ub, i.ps.killed⟩

/-- A coroutine that has not ended has a frame; the frame of one that has ended is freed, unless it threw when its promise
had been destroyed. -/
theorem C113_frames (N : Prog) (a : Nat) (es : List Ev) (c : Nat) (h : c < (run N a es).next) :
    ((run N a es).live c ∧ ∃ f, (run N a es).prom.frame c = some f ∧ f.stuck = false) ∨
    ((∃ o, (run N a es).pos c = .ended o) ∧ (run N a es).prom.frame c = none) ∨
    ((∃ e, (run N a es).pos c = .ended (.exc e)) ∧ (run N a es).prom.recv c = none ∧
      ∃ f, (run N a es).prom.frame c = some f ∧ f.stuck = true) := by
  obtain ⟨ph, i⟩ := TI.run N a es
  have h1 := (i.alive c).2 h
  have h2 := i.fits c
  rw [i.ps.frame, i.ps.recv]
  cases hp : ph c with
  | unborn => exact absurd hp h1
  | runs => rw [hp] at h2; exact .inl ⟨⟨h, h2⟩, _, rfl, rfl⟩
  | awaited a => rw [hp] at h2; exact .inl ⟨⟨h, h2⟩, _, rfl, rfl⟩
  | orphan => rw [hp] at h2; exact .inl ⟨⟨h, h2⟩, _, rfl, rfl⟩
  | over o => rw [hp] at h2; exact .inr (.inl ⟨⟨o, h2⟩, rfl⟩)
  | taken o => rw [hp] at h2; exact .inr (.inl ⟨⟨o, h2⟩, rfl⟩)
  | gone => rw [hp] at h2; exact .inr (.inl ⟨h2, rfl⟩)
  | stuck => rw [hp] at h2; exact .inr (.inr ⟨h2, rfl, _, rfl, rfl⟩)

theorem stuck_ph {asked : Prop} {s : St} {ph : Nat → Ph} (i : TI asked s ph) (c : Nat) :
    (∃ f, s.prom.frame c = some f ∧ f.stuck = true) ↔ ph c = .stuck := by
  rw [i.ps.frame]
  cases ph c <;> simp [frameOf]

theorem orphan_ph {asked : Prop} {s : St} {ph : Nat → Ph} (i : TI asked s ph) (c : Nat) :
    s.live c ∧ s.prom.recv c = none ↔ ph c = .orphan := by
  rw [i.ps.recv]
  constructor
  · intro ⟨h1, h2⟩
    have hb := (i.alive c).2 h1.1
    have hf := i.fits c
    cases hp : ph c with
    | unborn => exact absurd hp hb
    | orphan => rfl
    | runs => rw [hp] at h2; cases h2
    | awaited a => rw [hp] at h2; cases h2
    | over o => rw [hp] at h2; cases h2
    | taken o => rw [hp] at h2; cases h2
    | gone => rw [hp] at hf; obtain ⟨o, hf⟩ := hf; exact absurd hf (h1.2 o)
    | stuck => rw [hp] at hf; obtain ⟨o, hf⟩ := hf; exact absurd hf (h1.2 _)
  · intro h
    have hf := i.fits c
    rw [h] at hf
    exact ⟨⟨(i.alive c).1 (by rw [h]; simp), hf⟩, by rw [h]; rfl⟩

/-- The frame of a coroutine is lost, and its exception leaves the executor, if and only if the coroutine threw when its
promise had been destroyed. -/
theorem C113_exact (N : Prog) (a : Nat) (es : List Ev) (c : Nat) :
    (∃ f, (run N a es).prom.frame c = some f ∧ f.stuck = true) ↔ Escaped N a es c := by
  induction es using snoc_ind with
  | h0 =>
    show (∃ f, (St.init a).prom.frame c = some f ∧ f.stuck = true) ↔ _
    rw [stuck_ph (TI.init a) c]
    constructor
    · intro h
      by_cases e : c = 0
      · subst e; rw [upd_same] at h; cases h
      · rw [upd_diff _ _ e] at h; cases h
    · intro ⟨es₁, e, es₂, x, h, _⟩
      cases es₁ <;> cases h
  | h1 es e ih =>
    obtain ⟨ph, i⟩ := TI.run N a es
    obtain ⟨ph', i', r⟩ := i.step (N := N) e
    rw [← run_snoc] at i' r
    rw [stuck_ph i] at ih
    rw [stuck_ph i']
    constructor
    · intro h
      rcases r.from_ c h with h' | h'
      · obtain ⟨es₁, e', es₂, x, h1, h2⟩ := ih.1 h'
        exact ⟨es₁, e', es₂ ++ [e], x, by rw [h1]; simp, h2⟩
      · have hf := i'.fits c
        rw [h] at hf
        obtain ⟨x, hx⟩ := hf
        obtain ⟨h1, h2⟩ := (orphan_ph i c).2 h'
        exact ⟨es, e, [], x, rfl, h1, h2, hx⟩
    · intro ⟨es₁, e', es₂, x, h1, h2, h3, h4⟩
      by_cases hn : es₂ = []
      · subst hn
        have h5 := List.append_inj' h1 rfl
        obtain ⟨h5, h6⟩ := h5
        cases h6
        subst h5
        have ho := (orphan_ph i c).1 ⟨h2, h3⟩
        rcases r.orph c ho with h | ⟨o, h, h'⟩
        · have hf := i'.fits c
          rw [h] at hf
          exact absurd h4 (hf _)
        · rw [h4] at h'; injection h' with h'
          rw [h, ← h']; rfl
      · apply r.keep
        apply ih.2
        refine ⟨es₁, e', es₂.dropLast, x, ?_, h2, h3, h4⟩
        rw [← List.dropLast_concat_getLast hn, ← List.cons_append, ← List.append_assoc] at h1
        exact (List.append_inj' h1 rfl).1

/-- `thrower`: before the operation is cancelled nothing is lost. -/
example : ¬ Escaped thrower 0 [.go 0, .go 1, .go 0] 1 := by
  rw [← C113_exact]
  intro ⟨f, h1, h2⟩
  have : (run thrower 0 [.go 0, .go 1, .go 0]).prom.frame 1 = some { receiver := none } := by decide
  rw [this] at h1
  cases h1
  cases h2

example : Escaped thrower 0 throwing 1 := (C113_exact _ _ _ _).1 ⟨_, rfl, by decide⟩

/-- A coroutine whose promise was destroyed is cancelled. -/
theorem C113_orphans (N : Prog) (a : Nat) (es : List Ev) (c : Nat) (h : (run N a es).live c)
    (hd : (run N a es).prom.recv c = none) : (run N a es).cancelled c = true := by
  obtain ⟨ph, i⟩ := TI.run N a es
  exact i.orphan c ((orphan_ph i c).1 ⟨h, hd⟩)

example : (run thrower 0 [.go 0, .go 1, .go 0]).live 1 ∧ (run thrower 0 [.go 0, .go 1, .go 0]).prom.recv 1 = none :=
  ⟨⟨by decide, fun o h => by
    have : (run thrower 0 [.go 0, .go 1, .go 0]).pos 1 = .onOp 7 := by decide
    rw [this] at h; cases h⟩, by decide⟩

/-- The promise of a coroutine other than the first is destroyed if and only if the coroutine that started it has
ended. -/
theorem C113_scope (N : Prog) (a : Nat) (es : List Ev) (c : Nat) (h0 : c ≠ 0) (h : c < (run N a es).next) :
    (run N a es).prom.recv c = none ↔ ∃ o, (run N a es).pos ((run N a es).par c) = .ended o := by
  obtain ⟨ph, i⟩ := TI.run N a es
  rw [← i.held _ _ (i.own c (by omega) h), i.ps.recv]
  have := (i.alive c).2 h
  revert this
  cases ph c <;> simp [recOf, Ph.lost]

example : (run thrower 0 [.go 0, .go 1]).prom.recv 1 ≠ none ∧ (run thrower 0 [.go 0, .go 1]).par 1 = 0 := by decide

/-- A cancelled coroutine never waits for something that was not told to stop: neither for an operation nor for another
coroutine. Only operations of cancelled coroutines are told to stop. -/
theorem C113_told (N : Prog) (a : Nat) (es : List Ev) (c : Nat) :
    ((run N a es).cancelled c = true →
      (∀ x, (run N a es).pos c = .onOp x → (run N a es).told c = true) ∧
      ∀ r, (run N a es).pos c = .on r → (run N a es).cancelled r = true) ∧
    ((run N a es).told c = true → (run N a es).cancelled c = true) := by
  obtain ⟨ph, i⟩ := TI.run N a es
  exact ⟨i.cl c, i.toldc c⟩

/-- The first coroutine awaits another, this awaits a third, and this an operation. -/
def nest : Prog where
  act := fun a h => match h with
    | [] => if a = 2 then .op 7 else .start (a + 1)
    | [.started] => .await 0
    | _ => .fin (.val 1)
  op := id

example : (run nest 0 [.go 0, .go 0, .go 1, .go 1, .go 2, .cancel]).cancelled 0 = true ∧
    (run nest 0 [.go 0, .go 0, .go 1, .go 1, .go 2, .cancel]).pos 0 = .on 1 ∧
    (run nest 0 [.go 0, .go 0, .go 1, .go 1, .go 2, .cancel]).pos 1 = .on 2 ∧
    (run nest 0 [.go 0, .go 0, .go 1, .go 1, .go 2, .cancel]).told 2 = true := by decide

/-- A coroutine is cancelled only for a reason: it, or a coroutine above it, is the first one and somebody cancelled it or
destroyed its promise, or is another one whose promise was destroyed. -/
theorem C113_cause (N : Prog) (a : Nat) (es : List Ev) (c : Nat) (h : (run N a es).cancelled c = true) :
    ∃ d, Anc (run N a es).par c d ∧
      (d = 0 ∧ (.cancel ∈ es ∨ .drop ∈ es) ∨ d ≠ 0 ∧ d < (run N a es).next ∧ (run N a es).prom.recv d = none) := by
  obtain ⟨ph, i⟩ := TI.run N a es
  induction c using Nat.strongRecOn with
  | ind c ih =>
    have hl : c < (run N a es).next := by
      apply Classical.byContradiction
      intro hn
      rw [(i.new c (by omega)).2.2.2] at h; cases h
    rcases i.why c h with ⟨h1, h2⟩ | ⟨h1, h2⟩ | ⟨h1, h2⟩
    · exact ⟨c, .refl c, .inl ⟨h1, h2⟩⟩
    · refine ⟨c, .refl c, .inr ⟨h1, hl, ?_⟩⟩
      rw [i.ps.recv]
      revert h2
      cases ph c <;> simp [recOf, Ph.lost]
    · obtain ⟨d, h3, h4⟩ := ih _ (i.par _ _ (i.own c (by omega) hl)).2.1 h2
      exact ⟨d, .up h1 h3, h4⟩

example : (run nest 0 [.go 0, .go 0, .go 1, .go 1, .go 2, .cancel]).cancelled 2 = true := by decide

/-- When nothing can happen any more, all have ended, every promise but the first is destroyed, and no coroutine waits
for another for ever. -/
theorem C113_rest (N : Prog) (a : Nat) (es : List Ev) (h : (run N a es).rest) (c : Nat) (hc : c < (run N a es).next) :
    (∃ o, (run N a es).pos c = .ended o) ∧ (c ≠ 0 → (run N a es).prom.recv c = none) := by
  obtain ⟨ph, i⟩ := TI.run N a es
  have hend : ∀ n c, (run N a es).next - c ≤ n → c < (run N a es).next → ∃ o, (run N a es).pos c = .ended o := by
    intro n
    induction n with
    | zero => intro c h1 h2; omega
    | succ n ih =>
      intro c h1 h2
      cases hp : (run N a es).pos c with
      | idle => exact absurd hp (h c h2).1
      | onOp x => exact absurd hp ((h c h2).2 x)
      | ended o => exact ⟨o, rfl⟩
      | on q =>
        obtain ⟨h3, h4, -⟩ := i.fwd c q hp
        obtain ⟨o, ho⟩ := ih q (by omega) h4
        have hf := i.fits q
        rw [(i.on c q hp).2] at hf
        exact absurd ho (hf o)
  refine ⟨hend _ c (Nat.le_refl _) hc, fun h0 => ?_⟩
  rw [C113_scope N a es c h0 hc]
  exact hend _ _ (Nat.le_refl _) (Nat.lt_trans (i.par _ _ (i.own c (by omega) hc)).2.1 hc)

example : (run thrower 0 throwing).rest := by
  intro c hc
  have hn : (run thrower 0 throwing).next = 2 := by decide
  rw [hn] at hc
  have : c = 0 ∨ c = 1 := by omega
  rcases this with rfl | rfl
  · have : (run thrower 0 throwing).pos 0 = .ended (.val 0) := by decide
    rw [this]; simp
  · have : (run thrower 0 throwing).pos 1 = .ended (.exc 5) := by decide
    rw [this]; simp

/-- If the first coroutine is told to stop, or has ended, and no coroutine goes on for ever when every await throws, then
cancelled coroutines and operations that were told to stop suffice to bring all to an end. -/
theorem C113_winddown (N : Prog) (a : Nat) (es : List Ev) (r : (run N a es).ready N)
    (h : .cancel ∈ es ∨ .drop ∈ es ∨ ∃ o, (run N a es).pos 0 = .ended o) :
    ∃ es', (run N a es).windsAll N es' ∧
      ∀ c, c < (run N a (es ++ es')).next → ∃ o, (run N a (es ++ es')).pos c = .ended o :=
  wind_down N a _ es rfl r (h.elim (fun h => .inl (.inl h)) fun h => h.elim (fun h => .inl (.inr h)) .inr)

/-- Nor can they go on for ever. -/
theorem C113_stops (N : Prog) (a : Nat) (es : List Ev) (r : (run N a es).ready N) (f : Nat → Ev) :
    ¬ ∀ n, (run N a (es ++ (List.range n).map f)).winds (f n) :=
  wind_stops N a _ es rfl r f

theorem nest_ended {h : List Res} {a : Nat} (h1 : h ≠ []) (h2 : h ≠ [.started]) : Quits nest a h := by
  refine .fin (.val 1) ?_
  match h, h1, h2 with
  | .val _ :: _, _, _ => rfl
  | .exc _ :: _, _, _ => rfl
  | .cancelled :: _, _, _ => rfl
  | .bad :: _, _, _ => rfl
  | .started :: _ :: _, _, _ => rfl

theorem nest_started (a : Nat) : Quits nest a [.started] := .await 0 rfl (nest_ended (by simp) (by simp))

/-- `nest` with an argument up to 2 ends, even if it is told to stop before it has started the others. -/
example : (run nest 0 [.cancel]).ready nest := by
  have h2 : Quits nest 2 [] := .op 7 rfl (nest_ended (by simp) (by simp))
  have h1 : Quits nest 1 [] := .start 2 rfl h2 (nest_started 1)
  have h0 : Quits nest 0 [] := .start 1 rfl h1 (nest_started 0)
  intro c hc
  have h : c < 1 := hc.1
  have : c = 0 := by omega
  subst this
  exact ⟨fun _ => h0, fun x h => (by cases h), fun x h => (by cases h)⟩

/-- A coroutine that tries again whenever it is cancelled. -/
def stubborn : Prog where
  act := fun _ _ => .op 0
  op := id

theorem stubborn_run (n : Nat) : (run stubborn 0 (.cancel :: (List.range n).map fun _ => Ev.go 0)).pos 0 = .idle ∧
    (run stubborn 0 (.cancel :: (List.range n).map fun _ => Ev.go 0)).cancelled 0 = true ∧
    (run stubborn 0 (.cancel :: (List.range n).map fun _ => Ev.go 0)).next = 1 := by
  induction n with
  | zero => decide
  | succ n ih =>
    have e : (Ev.cancel :: (List.range (n + 1)).map fun _ => Ev.go 0) =
        (.cancel :: (List.range n).map fun _ => Ev.go 0) ++ [.go 0] := by
      rw [List.range_succ, List.map_append]; rfl
    rw [e, run_snoc]
    obtain ⟨h1, h2, h3⟩ := ih
    generalize run stubborn 0 (.cancel :: (List.range n).map fun _ => Ev.go 0) = s at *
    have ha : stubborn.act (s.arg 0) (s.hist 0) = .op 0 := rfl
    have : (0 : Nat) < 1 := by omega
    simp only [St.step, h1, h3, ha, this, and_self, if_true, St.act, h2, St.result, upd_same]

/-- That is needed: a coroutine that tries again whenever it is cancelled never comes to an end, though it was told to. -/
theorem C113_retry : ∃ N a es, Ev.cancel ∈ es ∧ ∃ f : Nat → Ev, ∀ n, (run N a (es ++ (List.range n).map f)).winds (f n) :=
  ⟨stubborn, 0, [.cancel], by simp, fun _ => .go 0, fun n => by
    obtain ⟨h1, h2, h3⟩ := stubborn_run n
    exact ⟨by rw [List.singleton_append, h3]; omega, h1, h2⟩⟩

end Cobalt.Tree
