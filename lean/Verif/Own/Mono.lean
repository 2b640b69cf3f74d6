import Verif.Chan.Persist
import Verif.Chan.Tokens
import Verif.Own.Spec
/-! Helper: what a step of a channel keeps. -/
namespace Cobalt.Chan

/-- No write was made or began; values that were handed over stay so. -/
structure Mn (s s' : St) : Prop where
  nW : s'.nextW = s.nextW
  log : ∃ m, s'.log = s.log ++ m ∧ startsW m = []
  dir : ∀ k, (s.W k).direct = true → (s'.W k).direct = true

theorem startsW_cat (a b : List Obs) : startsW (a ++ b) = startsW a ++ startsW b := by simp [startsW]

theorem Mn.refl (s : St) : Mn s s := ⟨rfl, ⟨[], by simp, rfl⟩, fun _ h => h⟩

theorem Mn.trans {s t u : St} (a : Mn s t) (b : Mn t u) : Mn s u := by
  obtain ⟨m, h1, h2⟩ := a.log
  obtain ⟨n, h3, h4⟩ := b.log
  exact ⟨b.nW.trans a.nW, ⟨m ++ n, by rw [h3, h1, List.append_assoc], by rw [startsW_cat, h2, h4]; rfl⟩,
    fun k h => b.dir k (a.dir k h)⟩

theorem upd_dir {W : Nat → WOp} {i : Nat} {o : WOp} (h : (W i).direct = true → o.direct = true) (k : Nat)
    (hk : (W k).direct = true) : (upd W i o k).direct = true := by
  unfold upd
  split
  · rename_i e; subst e; exact h hk
  · exact hk

/-- The log stays. -/
theorem Mn.of {s s' : St} (h1 : s'.nextW = s.nextW) (h2 : s'.log = s.log)
    (h3 : ∀ k, (s.W k).direct = true → (s'.W k).direct = true) : Mn s s' := ⟨h1, ⟨[], by rw [h2]; simp, rfl⟩, h3⟩

theorem Mn.wakeWriter (s : St) : Mn s s.wakeWriter := by
  unfold St.wakeWriter
  split
  · exact Mn.refl s
  · dsimp only
    split
    · split
      · exact Mn.of rfl rfl (upd_dir fun h => h)
      · exact Mn.of rfl rfl fun _ h => h
    · exact Mn.of rfl rfl fun _ h => h

theorem Mn.wakeReader (s : St) : Mn s s.wakeReader := by
  unfold St.wakeReader
  split
  · exact Mn.refl s
  · dsimp only
    split
    · split
      · exact Mn.of rfl rfl fun _ h => h
      · exact Mn.of rfl rfl fun _ h => h
    · exact Mn.of rfl rfl fun _ h => h

theorem Mn.endR (s : St) (i : Nat) (r : RRes) (b : List Nat) : Mn s { s.endR i r with buf := b } :=
  ⟨rfl, ⟨[.doneR i r], rfl, rfl⟩, fun _ h => h⟩

theorem Mn.endW (s : St) (i : Nat) (r : WRes) (b : List Nat) (a : Bool) :
    Mn s { s.endW i r with buf := b, asserted := a } :=
  ⟨rfl, ⟨[.doneW i r], rfl, rfl⟩, upd_dir fun h => h⟩

theorem Mn.resumeR (s : St) (i : Nat) : Mn s (s.resumeR i) := by
  unfold St.resumeR
  split
  · exact Mn.endR s i _ _
  · split
    · exact Mn.endR s i _ _
    · split
      · exact Mn.of rfl rfl fun _ h => h
      · exact (Mn.endR s i _ _).trans (Mn.wakeWriter _)
      · exact (Mn.endR s i _ _).trans (Mn.wakeWriter _)
      · exact (Mn.endR s i _ _).trans (Mn.wakeWriter _)

theorem Mn.resumeW (s : St) (i : Nat) : Mn s (s.resumeW i) := by
  unfold St.resumeW
  split
  · exact Mn.endW s i _ _ _
  · split
    · exact Mn.endW s i _ _ _
    · split
      · exact (Mn.endW s i _ _ _).trans (Mn.wakeReader _)
      · exact (Mn.endW s i _ _ _).trans (Mn.wakeReader _)

theorem Mn.int (s : St) (x : Tok) : Mn s (s.int x) := by
  cases x with
  | r i =>
    simp only [St.int, St.intR]
    split
    · exact Mn.refl s
    · split
      · exact Mn.refl s
      · have h : Mn s { s with R := upd s.R i { s.R i with cancelled := true } } := Mn.of rfl rfl fun _ h => h
        split
        · exact h.trans (Mn.resumeR _ i)
        · exact h
  | w i =>
    simp only [St.int, St.intW]
    split
    · exact Mn.refl s
    · split
      · exact Mn.refl s
      · have h : Mn s { s with W := upd s.W i { s.W i with cancelled := true } } := Mn.of rfl rfl (upd_dir fun h => h)
        split
        · exact h.trans (Mn.resumeW _ i)
        · exact h

theorem Mn.hits (ts : List Tok) (s : St) : Mn s (ts.foldl St.int s) := by
  induction ts generalizing s with
  | nil => exact Mn.refl s
  | cons x ts ih => exact (Mn.int s x).trans (ih _)

theorem Mn.handR (s : St) (i w : Nat) : Mn s (s.handR i w) := Mn.of rfl rfl (upd_dir fun h => h)

theorem Mn.handW (s : St) (i j : Nat) : Mn s (s.handW i j) := Mn.of rfl rfl (upd_dir fun h => h)

theorem Mn.awaitR (s : St) (i : Nat) (conn txn : Bool) (hits : List Tok) : Mn s (s.awaitR i conn txn hits) := by
  unfold St.awaitR
  split
  · exact Mn.refl s
  · have h : Mn s { s with log := s.log ++ [Obs.startR i] } := ⟨rfl, ⟨[.startR i], rfl, rfl⟩, fun _ h => h⟩
    refine h.trans ?_
    generalize { s with log := s.log ++ [Obs.startR i] } = s
    dsimp only
    split
    · exact Mn.resumeR _ i
    · split
      · exact Mn.resumeR _ i
      · split
        · exact Mn.of rfl rfl fun _ h => h
        · split
          · rename_i w _ _ _
            refine Mn.trans ?_ ((Mn.handR _ i w).trans (Mn.resumeW _ w))
            have h : Mn s (s.takeFrom i w txn) := Mn.of rfl rfl (upd_dir fun _ => rfl)
            split
            · exact h.trans (Mn.hits _ _)
            · exact h
          · exact Mn.of rfl rfl fun _ h => h

/-- The write begins, and that is all that begins. -/
theorem Mn.awaitW (s : St) (i : Nat) (conn txn : Bool) (hits : List Tok) :
    s.awaitW i conn txn hits = s ∧ (s.W i).status ≠ .fresh ∨
    Mn { s with log := s.log ++ [Obs.startW i] } (s.awaitW i conn txn hits) := by
  unfold St.awaitW
  split
  · rename_i h; exact .inl ⟨rfl, h⟩
  · right
    generalize { s with log := s.log ++ [Obs.startW i] } = s
    dsimp only
    split
    · exact Mn.resumeW _ i
    · split
      · exact Mn.resumeW _ i
      · split
        · exact Mn.of rfl rfl (upd_dir fun h => h)
        · split
          · rename_i j _ _ _
            refine Mn.trans ?_ ((Mn.handW _ i j).trans (Mn.resumeR _ j))
            have h : Mn s (s.giveTo i j txn) := Mn.of rfl rfl (upd_dir fun _ => rfl)
            split
            · exact h.trans (Mn.hits _ _)
            · exact h
          · exact Mn.of rfl rfl fun _ h => h

theorem Mn.step (s : St) {e : Ev} (he : Own.isWrite e = false) : Mn s (s.step e) := by
  unfold St.step
  split
  · exact Mn.refl s
  · cases e with
    | mkW => cases he
    | awaitW i conn txn hits => cases he
    | mkR => exact Mn.of rfl rfl fun _ h => h
    | awaitR i conn txn hits => exact Mn.awaitR s i conn txn hits
    | run k =>
      simp only [St.run]
      split
      · exact Mn.refl s
      · exact Mn.trans (t := { s with posted := s.posted.eraseIdx k }) (Mn.of rfl rfl fun _ h => h) (Mn.resumeR _ _)
      · exact Mn.trans (t := { s with posted := s.posted.eraseIdx k }) (Mn.of rfl rfl fun _ h => h) (Mn.resumeW _ _)
    | cancelR i =>
      simp only [St.cancelR]
      split
      · exact Mn.of rfl rfl fun _ h => h
      · exact Mn.refl s
    | cancelW i =>
      simp only [St.cancelW]
      split
      · exact Mn.of rfl rfl (upd_dir fun h => h)
      · exact Mn.refl s
    | intR i => exact Mn.int s (.r i)
    | intW i => exact Mn.int s (.w i)
    | dropR i =>
      simp only [St.dropR]
      split
      · exact Mn.of rfl rfl fun _ h => h
      · exact Mn.refl s
    | dropW i =>
      simp only [St.dropW]
      split
      · exact Mn.of rfl rfl (upd_dir fun h => h)
      · exact Mn.refl s
    | close =>
      refine Mn.of rfl rfl fun k h => ?_
      simp only [St.close]
      split
      · exact h
      · exact h

end Cobalt.Chan

namespace Cobalt.Own
open Chan

theorem took_mono {s s' : Chan.St} (m : Mn s s') {i : Nat} (h : took s i = true) : took s' i = true := by
  obtain ⟨l, hl, -⟩ := m.log
  simp only [took, Bool.or_eq_true, decide_eq_true_eq] at h ⊢
  rcases h with h | h
  · exact .inl (m.dir i h)
  · right; rw [hl]; exact List.mem_append_left _ h

/-- The invariants of a channel. -/
structure Ci (t : Chan.St) : Prop where
  wf : WF t none
  tk : TK t none

theorem took_lt {t : Chan.St} (c : Ci t) {i : Nat} (h : took t i = true) : i < t.nextW := by
  apply Classical.byContradiction
  intro hn
  have hw := c.wf.wnew i (by omega)
  simp only [took, Bool.or_eq_true, decide_eq_true_eq] at h
  rcases h with h | h
  · rw [hw] at h; cases h
  · have := c.tk.endW i _ h; rw [hw] at this; simp at this

theorem start_lt {t : Chan.St} (c : Ci t) {i : Nat} (h : Obs.startW i ∈ t.log) : i < t.nextW := by
  apply Classical.byContradiction
  intro hn
  have hw := c.wf.wnew i (by omega)
  rcases c.tk.noStW i (.inr (by rw [hw])) with h1 | h1
  · exact h1 h
  · cases h1

theorem mem_startsW {l : List Obs} {i : Nat} : i ∈ startsW l ↔ Obs.startW i ∈ l := by
  simp only [startsW, List.mem_filterMap]
  constructor
  · intro ⟨o, h1, h2⟩
    cases o with
    | startW j => simp only [Option.some.injEq] at h2; subst h2; exact h1
    | startR j => cases h2
    | doneR j r => cases h2
    | doneW j r => cases h2
  · intro h; exact ⟨_, h, rfl⟩

theorem Ci.init (cap : Nat) : Ci (Chan.St.init cap) := ⟨WF.init cap, TK.init cap⟩

theorem Ci.step {t : Chan.St} (c : Ci t) (e : Chan.Ev) (hu : (t.step e).ub = false) : Ci (t.step e) := by
  rcases c.wf.step e with h1 | h1
  · rw [hu] at h1; cases h1
  · rcases c.tk.step c.wf e with h2 | h2
    · rw [hu] at h2; cases h2
    · exact ⟨h1, h2⟩

/-- What a step does: `n` is the write that is made in it, if any. -/
structure Go (n : Option Nat) (t t' : Chan.St) : Prop where
  ci : Ci t'
  took : ∀ i, took t i = true → took t' i = true
  log : ∃ m, t'.log = t.log ++ m
  new : ∀ i, Obs.startW i ∈ t'.log → Obs.startW i ∈ t.log ∨ n = some i

theorem Ci.other {t : Chan.St} (c : Ci t) {e : Chan.Ev} (he : isWrite e = false) (hu : (t.step e).ub = false) :
    Go none t (t.step e) := by
  have m := Mn.step t he
  obtain ⟨l, hl, hs⟩ := m.log
  refine ⟨c.step e hu, fun i => took_mono m, ⟨l, hl⟩, fun i hi => ?_⟩
  rw [hl, List.mem_append] at hi
  rcases hi with hi | hi
  · exact .inl hi
  · have := mem_startsW.2 hi; rw [hs] at this; cases this

theorem ub_of_step {t : Chan.St} {e : Chan.Ev} (hu : (t.step e).ub = false) : t.ub = false := by
  cases h : t.ub with
  | false => rfl
  | true => rw [step_ub h] at hu; rw [h] at hu; cases hu

theorem Ci.write {t : Chan.St} (c : Ci t) (conn txn : Bool) (hits : List Tok)
    (hu : (t.steps [.mkW, .awaitW t.nextW conn txn hits]).ub = false) :
    Go (some t.nextW) t (t.steps [.mkW, .awaitW t.nextW conn txn hits]) := by
  change ((t.step .mkW).step (.awaitW t.nextW conn txn hits)).ub = false at hu
  have hu1 : (t.step .mkW).ub = false := ub_of_step hu
  have hu0 := ub_of_step hu1
  have c1 := c.step _ hu1
  have c2 := c1.step _ hu
  have e1 : t.step .mkW = { t with W := upd t.W t.nextW { status := .fresh, closedF := t.closed }, nextW := t.nextW + 1 } := by
    simp [Chan.St.step, hu0]
  have e2 : (t.step .mkW).step (.awaitW t.nextW conn txn hits) = (t.step .mkW).awaitW t.nextW conn txn hits := by
    generalize t.step .mkW = t' at hu1
    simp [Chan.St.step, hu1]
  have hm := Mn.awaitW (t.step .mkW) t.nextW conn txn hits
  rcases hm with ⟨-, hm⟩ | hm
  · exact absurd (by rw [e1]; simp [upd]) hm
  · show Go _ t ((t.step .mkW).step (.awaitW t.nextW conn txn hits))
    rw [e2] at c2 ⊢
    obtain ⟨l, hl, hs⟩ := hm.log
    have hlog : (t.step .mkW).log = t.log := by rw [e1]
    dsimp only at hl
    rw [hlog] at hl
    refine ⟨c2, fun i hi => ?_, ⟨[.startW t.nextW] ++ l, by rw [hl, List.append_assoc]⟩, fun i hi => ?_⟩
    · apply took_mono hm
      have hlt := took_lt c hi
      have hw : (t.step .mkW).W i = t.W i := by rw [e1]; simp [upd]; omega
      simp only [Own.took, Bool.or_eq_true, decide_eq_true_eq, hw, hlog] at hi ⊢
      rcases hi with h | h
      · exact .inl h
      · exact .inr (List.mem_append_left _ h)
    · rw [hl, List.mem_append, List.mem_append, List.mem_singleton] at hi
      rcases hi with (hi | hi) | hi
      · exact .inl hi
      · injection hi with hi; rw [hi]; exact .inr rfl
      · have := mem_startsW.2 hi; rw [hs] at this; cases this

end Cobalt.Own
