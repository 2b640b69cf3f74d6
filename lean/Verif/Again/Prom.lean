import Verif.Prom.Model
import Verif.Again.Wait
/-! Promises as sources (detail/promise.hpp:164-263). -/
namespace Cobalt.Again

open Comb (Cfg)

/-- Exceptions as numbers. -/
def promCode : Prom.Err → Nat
  | .detached => 0
  | .alreadyAwaited => 1
  | .unexpected => 2
  | .movedFrom => 3
  | .user e => e + 4

/-- 0 is a value that was moved from. -/
def promOut : Prom.Got → Comb.Out
  | .moved => .ok 0
  | .val v => .ok (v + 1)
  | .err e => .err (promCode e)

/-- A promise (number 0) and its coroutine (number 0), which is never destroyed from outside. The
coroutine can only end. -/
@[reducible] def prom : Src where
  σ := Prom.St
  β := Prom.Out
  γ := Prom.Got
  can s o := s.can (.finish 0 o)
  act s o := s.step (.finish 0 o)
  ask s a _ := s.await a 0
  intr s a := s.interrupt a
  ub := Prom.St.ub
  waits s := (s.recv 0).bind Prom.Rec.awaited
  log := Prom.St.log
  out := promOut
  cut g := g == .err .detached

/-- The values in the log. -/
def vals (l : List (Nat × Prom.Got)) : List (Nat × Nat) :=
  l.filterMap fun x => match x.2 with
    | .val v => some (x.1, v)
    | _ => none

@[simp] theorem vals_val (a v : Nat) (l : List (Nat × Prom.Got)) : vals ((a, .val v) :: l) = (a, v) :: vals l := rfl
@[simp] theorem vals_moved (a : Nat) (l : List (Nat × Prom.Got)) : vals ((a, .moved) :: l) = vals l := rfl
@[simp] theorem vals_err (a : Nat) (e : Prom.Err) (l : List (Nat × Prom.Got)) : vals ((a, .err e) :: l) = vals l := rfl

/-- Before and after the coroutine has ended. -/
def Stage (s : Prom.St) (R : Prom.Rec) : Prop :=
  (R.done = false ∧ R.exc = none ∧ R.result = none ∧ s.frame 0 = some { receiver := some 0 } ∧ vals s.log = []) ∨
  (R.done = true ∧ R.awaited = none ∧ s.frame 0 = none ∧
    ((∃ e, R.exc = some e ∧ vals s.log = []) ∨ (R.exc = none ∧ ∃ v, R.result = some (some v) ∧ vals s.log = []) ∨
      (R.exc = none ∧ R.result = some none ∧ ∃ a v, vals s.log = [(a, v)])))

structure Sound (s : Prom.St) (R : Prom.Rec) : Prop where
  ub : s.ub = false
  recv : s.recv 0 = some R
  self : ∀ a w, s.aw a = some w → w.self = 0
  awaited : ∀ a, R.awaited = some a → ∃ w, s.aw a = some w ∧ w.ex = none
  stage : Stage s R

theorem resumeAw_eq {s : Prom.St} {a : Nat} {w : Prom.Aw} {R R' : Prom.Rec} {g : Prom.Got} (hw : s.aw a = some w)
    (he : w.ex = none) (hr : s.recv w.self = some R) (hg : Prom.St.getResult R = some (R', g)) :
    s.resumeAw a = { s with
      recv := Prom.upd s.recv w.self (some R'), aw := Prom.upd s.aw a (some { w with got := some g }), log := (a, g) :: s.log } := by
  unfold Prom.St.resumeAw
  rw [hw]; dsimp only; rw [he]; dsimp only; rw [hr]; dsimp only; rw [hg]

/-- `await_resume` of an awaitable without an exception of its own, once the coroutine has
ended. -/
theorem Sound.resume {s : Prom.St} {R : Prom.Rec} (h : Sound s R) (hd : R.done = true) {a : Nat} {w : Prom.Aw}
    (hw : s.aw a = some w) (he : w.ex = none) :
    ∃ R' g, Sound (s.resumeAw a) R' ∧ R'.done = true ∧ R'.awaited = none ∧ R'.exc = R.exc ∧ (s.resumeAw a).log = (a, g) :: s.log ∧
      (∀ v, R.result = some (some v) → R.exc = none → g = .val v) := by
  have hs := h.self a w hw
  rcases h.stage with ⟨h1, -⟩ | ⟨-, ha, hf, hst⟩
  · rw [hd] at h1; simp at h1
  · have main : ∀ R' g, Prom.St.getResult R = some (R', g) → R'.done = true → R'.awaited = none → R'.exc = R.exc →
        (∀ v, R.result = some (some v) → R.exc = none → g = .val v) →
        ((∃ e, R'.exc = some e ∧ vals ((a, g) :: s.log) = []) ∨
          (R'.exc = none ∧ R'.result = some none ∧ ∃ b v, vals ((a, g) :: s.log) = [(b, v)])) →
        ∃ R' g, Sound (s.resumeAw a) R' ∧ R'.done = true ∧ R'.awaited = none ∧ R'.exc = R.exc ∧
          (s.resumeAw a).log = (a, g) :: s.log ∧ (∀ v, R.result = some (some v) → R.exc = none → g = .val v) := by
      intro R' g hg h1 h2 h3 h4 h5
      have e := resumeAw_eq hw he (by rw [hs]; exact h.recv) hg
      refine ⟨R', g, ⟨?_, ?_, ?_, ?_, ?_⟩, h1, h2, h3, ?_, h4⟩
      · rw [e]; exact h.ub
      · rw [e]; simp [hs]
      · rw [e]
        intro b x hx
        dsimp only at hx
        rw [Prom.upd_apply] at hx
        split at hx
        · simp only [Option.some.injEq] at hx; subst hx; exact hs
        · exact h.self b x hx
      · intro b hb; rw [h2] at hb; simp at hb
      · rw [e]
        refine Or.inr ⟨h1, h2, hf, ?_⟩
        rcases h5 with h5 | h5
        · exact Or.inl h5
        · exact Or.inr (Or.inr h5)
      · rw [e]
    rcases hst with ⟨e, h1, h2⟩ | ⟨h1, v, h2, h3⟩ | ⟨h1, h2, b, v, h3⟩
    · refine main { R with taken := true } (.err e) ?_ hd ha rfl ?_ ?_
      · unfold Prom.St.getResult; rw [h1]; dsimp only; rw [if_pos hd]
      · intro v _ hx; rw [h1] at hx; simp at hx
      · exact Or.inl ⟨e, h1, by simpa using h2⟩
    · refine main { R with taken := true, result := some none } (.val v) ?_ hd ha rfl ?_ ?_
      · unfold Prom.St.getResult; rw [h1]; dsimp only; rw [h2]
      · intro v' hv _; rw [h2] at hv; simp only [Option.some.injEq] at hv; rw [hv]
      · exact Or.inr ⟨h1, rfl, a, v, by simp [h3]⟩
    · refine main { R with taken := true } .moved ?_ hd ha rfl ?_ ?_
      · unfold Prom.St.getResult; rw [h1]; dsimp only; rw [h2]
      · intro v' hv _; rw [h2] at hv; simp at hv
      · exact Or.inr ⟨h1, h2, b, v, by simpa using h3⟩

/-- What the coroutine gave is there: held or handed over. -/
def Kept (s : Prom.St) (R : Prom.Rec) : Prom.Out → Prop
  | .val v => R.exc = none ∧ (R.result = some (some v) ∨ ∃ a, (a, Prom.Got.val v) ∈ s.log)
  | .exc e => R.exc = some (.user e)

theorem Sound.finish {s : Prom.St} {R : Prom.Rec} (h : Sound s R) {o : Prom.Out} (hc : s.can (.finish 0 o) = true) :
    R.done = false ∧ ∃ R', Sound (s.step (.finish 0 o)) R' ∧ R'.done = true ∧ R'.awaited = none ∧ Kept (s.step (.finish 0 o)) R' o ∧
      ((R.awaited = none ∧ (s.step (.finish 0 o)).log = s.log) ∨
        ∃ a g, R.awaited = some a ∧ (s.step (.finish 0 o)).log = (a, g) :: s.log) := by
  have hst := h.stage
  unfold Stage at hst
  rcases hst with ⟨h1, h2, h3, h4, h5⟩ | ⟨h1, -, h2, -⟩
  · refine ⟨h1, ?_⟩
    have e0 : s.step (.finish 0 o) = s.finish 0 o := by
      unfold Prom.St.step; rw [if_neg (by simp [h.ub, hc])]
    -- the receiver once the coroutine has ended
    have key : ∃ R₀ : Prom.Rec, R₀.awaited = none ∧ R₀.done = true ∧
        (match o with
          | .val v => R₀.exc = none ∧ R₀.result = some (some v)
          | .exc e => R₀.exc = some (.user e)) ∧
        s.finish 0 o = (match R.awaited with
          | none => { s with frame := Prom.upd s.frame 0 none, recv := Prom.upd s.recv 0 (some R₀) }
          | some a => Prom.St.resumeAw { s with
              frame := Prom.upd s.frame 0 none, recv := Prom.upd s.recv 0 (some R₀) } a) := by
      cases o with
      | val v =>
        refine ⟨{ R with result := some (some v), done := true, awaited := none }, rfl, rfl, ⟨h2, rfl⟩, ?_⟩
        unfold Prom.St.finish
        simp only [h4, h.recv]
        cases hx : R.awaited <;> simp
      | exc e =>
        refine ⟨{ R with exc := some (.user e), done := true, awaited := none }, rfl, rfl, rfl, ?_⟩
        unfold Prom.St.finish
        simp only [h4, h.recv]
        cases hx : R.awaited <;> simp
    obtain ⟨R₀, k1, k2, k3, k4⟩ := key
    have hs0 : Sound { s with frame := Prom.upd s.frame 0 none, recv := Prom.upd s.recv 0 (some R₀) } R₀ := by
      refine ⟨h.ub, by simp, h.self, by simp [k1], Or.inr ⟨k2, k1, by simp, ?_⟩⟩
      cases o with
      | val v => exact Or.inr (Or.inl ⟨k3.1, v, k3.2, h5⟩)
      | exc e => exact Or.inl ⟨_, k3, h5⟩
    rw [e0, k4]
    cases hx : R.awaited with
    | none =>
      refine ⟨R₀, hs0, k2, k1, ?_, Or.inl ⟨rfl, rfl⟩⟩
      cases o with
      | val v => exact ⟨k3.1, Or.inl k3.2⟩
      | exc e => exact k3
    | some a =>
      obtain ⟨w, hw, he⟩ := h.awaited a hx
      obtain ⟨R', g, r1, r0, r2, r3, r4, r5⟩ := hs0.resume k2 (a := a) hw he
      refine ⟨R', r1, r0, r2, ?_, Or.inr ⟨a, g, rfl, r4⟩⟩
      cases o with
      | val v => exact ⟨r3.trans k3.1, Or.inr ⟨a, by dsimp only; rw [r4, r5 v k3.2 k3.1]; simp⟩⟩
      | exc e => exact r3.trans k3
  · simp [Prom.St.can, h2] at hc

/-- A new awaitable. -/
theorem Sound.fresh {s : Prom.St} {R : Prom.Rec} (h : Sound s R) (a : Nat) (hn : R.awaited = none) :
    Sound { s with aw := Prom.upd s.aw a (some { self := 0 }) } R := by
  refine ⟨h.ub, h.recv, ?_, by simp [hn], h.stage⟩
  intro b x hx
  dsimp only at hx
  rw [Prom.upd_apply] at hx
  split at hx
  · simp only [Option.some.injEq] at hx; subst hx; rfl
  · exact h.self b x hx

theorem Sound.ask {s : Prom.St} {R : Prom.Rec} (h : Sound s R) (a : Nat) (hn : R.awaited = none) :
    ∃ R', Sound (s.await a 0) R' ∧ R'.done = R.done ∧ R'.exc = R.exc ∧
      ((R.done = false ∧ R'.awaited = some a ∧ R'.result = R.result ∧ (s.await a 0).log = s.log) ∨
        (R'.awaited = none ∧ ∃ g, (s.await a 0).log = (a, g) :: s.log ∧
          ∀ v, R.result = some (some v) → R.exc = none → g = .val v)) := by
  unfold Prom.St.await
  rw [h.recv]
  dsimp only
  cases hd : R.done with
  | true =>
    rw [if_pos rfl]
    obtain ⟨R', g, r1, r0, r2, r3, r4, r5⟩ := (h.fresh a hn).resume hd (a := a) (w := { self := 0 }) (by simp) rfl
    exact ⟨R', r1, r0, r3, Or.inr ⟨r2, g, r4, r5⟩⟩
  | false =>
    rw [if_neg (by simp), if_neg (by simp [hn])]
    refine ⟨{ R with awaited := some a }, ⟨h.ub, by simp [hd], (h.fresh a hn).self, ?_, ?_⟩, hd, rfl, Or.inl ⟨rfl, rfl, rfl, rfl⟩⟩
    · intro b hb
      dsimp only at hb
      simp only [Option.some.injEq] at hb
      subst hb
      exact ⟨{ self := 0 }, by simp, rfl⟩
    · rcases h.stage with ⟨_, h2⟩ | ⟨h1, _⟩
      · exact Or.inl ⟨hd, h2⟩
      · rw [hd] at h1; simp at h1

theorem Sound.intr {s : Prom.St} {R : Prom.Rec} (h : Sound s R) {a : Nat} (hn : R.awaited = some a) :
    ∃ R', Sound (s.interrupt a) R' ∧ R'.done = R.done ∧ R'.exc = R.exc ∧ R'.awaited = none ∧ R'.result = R.result ∧
      (s.interrupt a).log = (a, .err .detached) :: s.log := by
  obtain ⟨w, hw, he⟩ := h.awaited a hn
  have hs := h.self a w hw
  have e : s.interrupt a = { s with
      recv := Prom.upd s.recv 0 (some { R with awaited := none })
      aw := Prom.upd (Prom.upd s.aw a (some { w with ex := some .detached })) a
        (some { w with ex := some .detached, got := some (.err .detached) })
      log := (a, .err .detached) :: s.log } := by
    unfold Prom.St.interrupt
    rw [hw]; dsimp only; rw [hs, h.recv]; dsimp only; rw [hn]; dsimp only
    unfold Prom.St.resumeAw
    simp only [Prom.upd_apply, if_true]
  refine ⟨{ R with awaited := none }, ⟨?_, ?_, ?_, ?_, ?_⟩, rfl, rfl, rfl, rfl, by rw [e]⟩
  · rw [e]; exact h.ub
  · rw [e]; simp
  · rw [e]
    intro b x hx
    simp only [Prom.upd_apply] at hx
    split at hx
    · simp only [Option.some.injEq] at hx; subst hx; exact hs
    · exact h.self b x hx
  · simp
  · rw [e]
    rcases h.stage with h1 | ⟨-, h2, -⟩
    · exact Or.inl ⟨h1.1, h1.2.1, h1.2.2.1, h1.2.2.2.1, by simpa using h1.2.2.2.2⟩
    · rw [hn] at h2; simp at h2

theorem prom_ok : prom.Ok fun s => ∃ R, Sound s R := by
  have waits : ∀ {s : Prom.St} {R : Prom.Rec}, Sound s R → prom.waits s = R.awaited := by
    intro s R h
    show (s.recv 0).bind _ = _
    rw [h.recv]; rfl
  constructor
  · rintro s o ⟨R, h⟩ _ hc _
    obtain ⟨-, R', h1, -, h3, -, h5⟩ := h.finish hc
    refine ⟨⟨R', h1⟩, ?_⟩
    rcases h5 with ⟨h5, h6⟩ | ⟨a, g, h5, h6⟩
    · exact Or.inl ⟨h6, by rw [waits h, waits h1, h5, h3]⟩
    · exact Or.inr ⟨a, g, (waits h).trans h5, h6, (waits h1).trans h3⟩
  · rintro s a p ⟨R, h⟩ _ hw _
    rw [waits h] at hw
    obtain ⟨R', h1, -, -, h3⟩ := h.ask a hw
    refine ⟨⟨R', h1⟩, ?_⟩
    rcases h3 with ⟨-, h3, -, h4⟩ | ⟨h3, g, h4, -⟩
    · exact Or.inl ⟨h4, (waits h1).trans h3⟩
    · exact Or.inr ⟨g, h4, (waits h1).trans h3⟩
  · rintro s a ⟨R, h⟩ _ hw _
    rw [waits h] at hw
    obtain ⟨R', h1, -, -, h3, -, h4⟩ := h.intr hw
    exact ⟨⟨R', h1⟩, .err .detached, rfl, h4, (waits h1).trans h3⟩

/-- Promises whose coroutines have begun. -/
def proms : St prom := { src := fun _ => Prom.St.run [.create 0 0] }

theorem sound_start : Sound (Prom.St.run [.create 0 0]) { ref := some 0, attached := true } := by
  refine ⟨rfl, rfl, ?_, ?_, Or.inl ⟨rfl, rfl, rfl, rfl, rfl⟩⟩
  · intro a w h; exact absurd h (by simp [Prom.St.run, Prom.St.steps, Prom.St.step, Prom.St.can])
  · intro a h; simp at h

theorem proms_start : Start (fun s => ∃ R, Sound s R) proms :=
  ⟨fun _ => ⟨⟨_, sound_start⟩, rfl, rfl, rfl⟩, rfl, rfl, rfl, rfl, rfl⟩

theorem Kept.log {s t : Prom.St} {R R' : Prom.Rec} {o : Prom.Out} (h : Kept s R o) (he : R'.exc = R.exc)
    (hr : R'.result = R.result) (hl : ∀ x ∈ s.log, x ∈ t.log) : Kept t R' o := by
  cases o with
  | val v =>
    obtain ⟨h1, h2 | ⟨a, h2⟩⟩ := h
    · exact ⟨he.trans h1, Or.inl (hr.trans h2)⟩
    · exact ⟨he.trans h1, Or.inr ⟨a, hl _ h2⟩⟩
  | exc e => exact he.trans h

theorem Kept.ask {s : Prom.St} {R : Prom.Rec} (h : Sound s R) {o : Prom.Out} (k : Kept s R o) (a : Nat) (hn : R.awaited = none) :
    ∃ R', Sound (s.await a 0) R' ∧ Kept (s.await a 0) R' o := by
  obtain ⟨R', h1, -, h2, h3⟩ := h.ask a hn
  refine ⟨R', h1, ?_⟩
  rcases h3 with ⟨-, -, h4, h5⟩ | ⟨-, g, h4, h5⟩
  · exact k.log h2 h4 (by rw [h5]; simp)
  · cases o with
    | val v =>
      obtain ⟨k1, k2 | ⟨b, k2⟩⟩ := k
      · exact ⟨h2.trans k1, Or.inr ⟨a, by rw [h4, h5 v k2 k1]; simp⟩⟩
      · exact ⟨h2.trans k1, Or.inr ⟨b, by rw [h4]; simp [k2]⟩⟩
    | exc e => exact h2.trans k

/-- What each coroutine gave is kept. -/
def Store (s : St prom) (es : List (Ev prom)) : Prop :=
  ∀ i o, Ev.act i o ∈ es → ∃ R, Sound (s.src i) R ∧ Kept (s.src i) R o

theorem Sound.unique {s : Prom.St} {R R' : Prom.Rec} (h : Sound s R) (k : Sound s R') : R' = R := by
  have := h.recv; rw [k.recv] at this; simpa using this

theorem kept_done {s : Prom.St} {R : Prom.Rec} (h : Sound s R) {o : Prom.Out} (k : Kept s R o) : R.done = true := by
  rcases h.stage with ⟨h1, h2, h3, h4, h5⟩ | ⟨h1, -⟩
  · exfalso
    cases o with
    | val v =>
      rcases k with ⟨-, k | ⟨a, k⟩⟩
      · rw [h3] at k; simp at k
      · unfold vals at h5
        rw [List.filterMap_eq_nil_iff] at h5
        have := h5 _ k
        simp at this
    | exc e => have k : R.exc = _ := k; rw [h2] at k; simp at k
  · exact h1

theorem Store.step {c : Cfg} (hc : Proper c) {s : St prom} {evs : List Comb.Ev}
    (h : Good (fun s => ∃ R, Sound s R) c s evs) {es : List (Ev prom)} (k : Store s es) {e : Ev prom}
    (hcan : s.can c e = true) (hu : (s.step c e).ub = false) : Store (s.step c e) (es ++ [e]) := by
  have hk := h.cases prom_ok hc hcan hu
  generalize s.step c e = t at hk
  clear hu
  have waits : ∀ i R, Sound (s.src i) R → R.awaited = if s.comb.child i = .waiting then some s.round else none := by
    intro i R hR
    rw [← h.waits i]
    show _ = ((s.src i).recv 0).bind _
    rw [hR.recv]; rfl
  have old : ∀ {t : St prom}, (∀ j o, (∃ R, Sound (s.src j) R ∧ Kept (s.src j) R o) →
      ∃ R, Sound (t.src j) R ∧ Kept (t.src j) R o) → (∀ j o, e ≠ .act j o) → Store t (es ++ [e]) := by
    intro t h1 h2 j o hm
    rcases List.mem_append.1 hm with hm | hm
    · exact h1 j o (k j o hm)
    · exact absurd (List.mem_singleton.1 hm).symm (h2 j o)
  have act : ∀ {t : St prom} {i : Nat} {b : Prom.Out}, e = .act i b → (s.src i).can (.finish 0 b) = true →
      t.src = Comb.upd s.src i ((s.src i).step (.finish 0 b)) → Store t (es ++ [e]) := by
    intro t i b he hb ht j o hm
    obtain ⟨R, hR⟩ := (h.src i).1
    obtain ⟨hd, R', h1, -, -, h4, -⟩ := hR.finish hb
    rw [ht, Comb.upd_apply]
    rcases List.mem_append.1 hm with hm | hm
    · split
      · rename_i hji; subst hji
        obtain ⟨R₁, h5, h6⟩ := k j o hm
        rw [hR.unique h5] at h6
        rw [kept_done hR h6] at hd
        simp at hd
      · exact k j o hm
    · have := List.mem_singleton.1 hm
      rw [he] at this
      simp only [Ev.act.injEq] at this
      obtain ⟨rfl, rfl⟩ := this
      rw [if_pos rfl]
      exact ⟨R', h1, h4⟩
  cases hk with
  | calm ce hx =>
    refine old (fun j o h => h) ?_
    rcases hx with ⟨-, ⟨d, -, rfl⟩ | ⟨-, rfl⟩ | ⟨-, rfl⟩ | ⟨ct, -, rfl⟩⟩ <;> simp
  | ready i p d g hi hI hg hcan' =>
    refine old (fun j o hj => ?_) (by simp)
    dsimp only
    rw [Comb.upd_apply]
    split
    · rename_i hji; subst hji
      obtain ⟨R, h1, h2⟩ := hj
      refine Kept.ask h1 h2 s.round ?_
      rw [waits j R h1, if_neg]
      obtain ⟨_, _, ha⟩ := h.all hc
      rw [(ha.inv.asking j).2 (by rw [Comb.tags_of_head (asked_eq hi)]; simp [Comb.Frame.tag])]
      simp
    · exact hj
  | notReady i p d hi =>
    refine old (fun j o hj => ?_) (by simp)
    dsimp only
    rw [Comb.upd_apply]
    split
    · rename_i hji; subst hji
      obtain ⟨R, h1, h2⟩ := hj
      refine Kept.ask h1 h2 s.round ?_
      rw [waits j R h1, if_neg]
      obtain ⟨_, _, ha⟩ := h.all hc
      rw [(ha.inv.asking j).2 (by rw [Comb.tags_of_head (asked_eq hi)]; simp [Comb.Frame.tag])]
      simp
    · exact hj
  | stays i b =>
    simp only [St.can, Bool.and_eq_true] at hcan
    exact act rfl hcan.1.2 rfl
  | gives i b =>
    simp only [St.can, Bool.and_eq_true] at hcan
    exact act rfl hcan.1.2 rfl
  | cut i g hI hi hc' hg hw =>
    refine old (fun j o hj => ?_) (by simp)
    dsimp only
    rw [Comb.upd_apply]
    split
    · rename_i hji; subst hji
      obtain ⟨R, h1, h2⟩ := hj
      obtain ⟨R', h3, -, h4, -, h5, h6⟩ := h1.intr (a := s.round) (by rw [waits j R h1, if_pos hw])
      exact ⟨R', h3, h2.log h4 h5 (by rw [h6]; intro x hx; simp [hx])⟩
    · exact hj
  | next => exact old (fun j o h => h) (by simp)

theorem Store.steps {c : Cfg} (hc : Proper c) : ∀ (es : List (Ev prom)) {s : St prom}
    {evs : List Comb.Ev} {old : List (Ev prom)}, Good (fun s => ∃ R, Sound s R) c s evs → Store s old → Legal c s es →
    (s.steps c es).fine → Store (s.steps c es) (old ++ es)
  | [], _, _, old, _, f, _, _ => by rw [List.append_nil]; exact f
  | e :: es, s, _, old, h, f, hl, hf => by
    have hf1 := fine_step hf
    obtain ⟨evs', h'⟩ := h.step prom_ok hc hl.1 hf1.1 hf1.2
    have := Store.steps hc es h' (f.step hc h hl.1 hf1.1) hl.2 hf
    rw [List.append_assoc] at this
    exact this

end Cobalt.Again
