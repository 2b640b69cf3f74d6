import Verif.Inc.Model

/-!
# Lemmas about including headers
-/

namespace Cobalt.Inc

variable {H G : Type} [DecidableEq H] [DecidableEq G] {w : World H G}

/-! ### No two headers with one guard are read -/

/-- Of the headers with one guard at most one has been read. -/
structure One (w : World H G) (s : St H G) : Prop where
  seen : ∀ h ∈ s.known, w.guard h ∈ s.defined
  one : ∀ a ∈ s.known, ∀ b ∈ s.known, w.guard a = w.guard b → a = b

/-- What a step from `s` to `t` leaves alone: macros stay defined, and headers whose guards were
defined before are not read any more. -/
structure Keeps (w : World H G) (s t : St H G) : Prop where
  one : One w t
  defined : ∀ g ∈ s.defined, g ∈ t.defined
  known : ∀ h ∈ s.known, h ∈ t.known
  shut : ∀ h ∈ t.known, w.guard h ∈ s.defined → h ∈ s.known

theorem Keeps.refl {s : St H G} (h : One w s) : Keeps w s s :=
  ⟨h, fun _ h => h, fun _ h => h, fun _ h _ => h⟩

theorem Keeps.trans {s t u : St H G} (h : Keeps w s t) (k : Keeps w t u) : Keeps w s u :=
  ⟨k.one, fun g hg => k.defined g (h.defined g hg), fun x hx => k.known x (h.known x hx),
    fun x hx hg => h.shut x (k.shut x hx (h.defined _ hg)) hg⟩

theorem keeps_fold {f : H → St H G → St H G}
    (hf : ∀ x s, One w s → Keeps w s (f x s)) (xs : List H) :
    ∀ s, One w s → Keeps w s (xs.foldl (fun s x => f x s) s) := by
  induction xs with
  | nil => intro s h; exact Keeps.refl h
  | cons x xs ih => intro s h; exact (hf x s h).trans (ih _ (hf x s h).one)

theorem keeps_enter (n : Nat) : ∀ h (s : St H G), One w s → Keeps w s (enter w n h s) := by
  induction n with
  | zero =>
    intro h s hs
    exact ⟨⟨hs.seen, hs.one⟩, fun _ h => h, fun _ h => h, fun _ h _ => h⟩
  | succ n ih =>
    intro h s hs
    rw [enter]
    split
    · exact Keeps.refl hs
    · rename_i hg
      have hg' : w.guard h ∉ s.defined := by simpa using hg
      have h1 : One w ({ s with defined := w.guard h :: s.defined } : St H G) :=
        ⟨fun x hx => List.mem_cons_of_mem _ (hs.seen x hx), hs.one⟩
      have k2 := keeps_fold ih (w.before h) _ h1
      dsimp only
      generalize (w.before h).foldl (fun s x => enter w n x s)
        { s with defined := w.guard h :: s.defined } = s2 at k2
      have hn : ∀ k ∈ s2.known, w.guard k ≠ w.guard h := by
        intro k hk he
        have := k2.shut k hk (by rw [he]; exact List.mem_cons_self ..)
        exact hg' (he ▸ hs.seen k this)
      have h3 : One w (declare w h s2) := by
        refine ⟨fun x hx => ?_, fun a ha b hb he => ?_⟩
        · rcases List.mem_cons.mp hx with rfl | hx
          · exact k2.defined _ (List.mem_cons_self ..)
          · exact k2.one.seen x hx
        · rcases List.mem_cons.mp ha with rfl | ha <;> rcases List.mem_cons.mp hb with rfl | hb
          · rfl
          · exact absurd he.symm (hn b (by assumption))
          · exact absurd he (hn a (by assumption))
          · exact k2.one.one a (by assumption) b (by assumption) he
      have k4 := keeps_fold ih (w.after h) _ h3
      refine ⟨k4.one, fun g hgg => k4.defined g (k2.defined g (List.mem_cons_of_mem _ hgg)),
        fun x hx => k4.known x (List.mem_cons_of_mem _ (k2.known x hx)), fun x hx hgx => ?_⟩
      have hx3 := k4.shut x hx (k2.defined _ (List.mem_cons_of_mem _ hgx))
      rcases List.mem_cons.mp hx3 with rfl | hx2
      · exact absurd hgx hg'
      · exact k2.shut x hx2 (List.mem_cons_of_mem _ hgx)

theorem one_unit (hs : List H) : One w (unit w hs) :=
  (keeps_fold (fun x s => keeps_enter (w := w) depth x s) hs _
    ⟨fun _ h => absurd h List.not_mem_nil, fun _ h => absurd h List.not_mem_nil⟩).one

/-! ### Headers whose guards differ are all read -/

/-- A header that is included before the declarations stands below; a header that is included after
them includes, apart from the header it comes from, headers below that one only. -/
structure Order (w : World H G) (r : H → Nat) : Prop where
  below : ∀ h, ∀ x ∈ w.before h, r x < r h
  uses : ∀ h, ∀ x ∈ w.uses h, x ∈ w.before h
  tail : ∀ h, ∀ t ∈ w.after h, w.after t = [] ∧ ∀ x ∈ w.before t, x = h ∨ r x < r h
  depth : ∀ h, 2 * r h + 7 ≤ depth

/-- A set of headers with all they include, no two with one guard. -/
structure Apart (w : World H G) (R : H → Prop) : Prop where
  before : ∀ h, R h → ∀ x ∈ w.before h, R x
  after : ∀ h, R h → ∀ x ∈ w.after h, R x
  differ : ∀ a b, R a → R b → w.guard a = w.guard b → a = b

/-- The state while the headers `op` are read up to their declarations and the headers `pd` behind
theirs. -/
structure Fine (w : World H G) (R : H → Prop) (s : St H G) (op pd : List H) : Prop where
  good : s.bad = false
  got : ∀ h, R h → w.guard h ∈ s.defined → h ∈ s.known ∨ h ∈ op
  seen : ∀ h ∈ s.known, R h ∧ w.guard h ∈ s.defined
  full : ∀ h ∈ s.known, h ∈ pd ∨
    ((∀ x ∈ w.before h, w.guard x ∈ s.defined) ∧ ∀ x ∈ w.after h, w.guard x ∈ s.defined)

/-- A header that can be included now, with `n` levels left. -/
def Fit (w : World H G) (r : H → Nat) (n : Nat) (s : St H G) (op : List H) (h : H) : Prop :=
  1 ≤ n ∧ (w.guard h ∈ s.defined ∨
    (∀ x ∈ w.before h, 2 ≤ n ∧ (∀ o ∈ op, r x < r o) ∧
      (w.guard x ∈ s.defined ∨ 2 * r x + 5 ≤ n)) ∧
    (w.after h ≠ [] → (∀ o ∈ op, r h < r o) ∧ 2 * r h + 4 ≤ n))

omit [DecidableEq H] [DecidableEq G] in
theorem Fit.mono {r : H → Nat} {n : Nat} {s t : St H G} {op : List H} {h : H}
    (f : Fit w r n s op h) (hd : ∀ g ∈ s.defined, g ∈ t.defined) : Fit w r n t op h :=
  ⟨f.1, f.2.imp (hd _) fun f =>
    ⟨fun x hx => ⟨(f.1 x hx).1, (f.1 x hx).2.1, (f.1 x hx).2.2.imp (hd _) id⟩, f.2⟩⟩

/-- What including `h` brings. -/
structure Done (w : World H G) (R : H → Prop) (s t : St H G) (op pd : List H) (h : H) : Prop where
  fine : Fine w R t op pd
  defined : ∀ g ∈ s.defined, g ∈ t.defined
  here : w.guard h ∈ t.defined

theorem fine_fold {R : H → Prop} {r : H → Nat} {n : Nat} {op pd : List H}
    (hf : ∀ x (s : St H G), R x → Fine w R s op pd → Fit w r n s op x →
      Done w R s (enter w n x s) op pd x) (xs : List H) :
    ∀ s : St H G, (∀ x ∈ xs, R x) → Fine w R s op pd → (∀ x ∈ xs, Fit w r n s op x) →
      Fine w R (xs.foldl (fun s x => enter w n x s) s) op pd ∧
      (∀ g ∈ s.defined, g ∈ (xs.foldl (fun s x => enter w n x s) s).defined) ∧
      ∀ x ∈ xs, w.guard x ∈ (xs.foldl (fun s x => enter w n x s) s).defined := by
  induction xs with
  | nil => intro s _ h _; exact ⟨h, fun _ h => h, fun _ h => absurd h List.not_mem_nil⟩
  | cons x xs ih =>
    intro s hR h hfit
    have d := hf x s (hR x (List.mem_cons_self ..)) h (hfit x (List.mem_cons_self ..))
    obtain ⟨i1, i2, i3⟩ := ih (enter w n x s) (fun y hy => hR y (List.mem_cons_of_mem _ hy)) d.fine
      (fun y hy => (hfit y (List.mem_cons_of_mem _ hy)).mono d.defined)
    refine ⟨i1, fun g hg => i2 g (d.defined g hg), fun y hy => ?_⟩
    rcases List.mem_cons.mp hy with rfl | hy
    · exact i2 _ d.here
    · exact i3 y hy

theorem fine_enter {R : H → Prop} {r : H → Nat} (ho : Order w r) (ha : Apart w R) (n : Nat) :
    ∀ h (s : St H G) (op pd : List H), R h → Fine w R s op pd → Fit w r n s op h →
      Done w R s (enter w n h s) op pd h := by
  induction n with
  | zero => intro h s op pd _ _ f; exact absurd f.1 (by omega)
  | succ n ih =>
    intro h s op pd hR hs f
    rw [enter]
    split
    · rename_i hg
      exact ⟨hs, fun _ h => h, by simpa using hg⟩
    · rename_i hg
      have hg' : w.guard h ∉ s.defined := by simpa using hg
      obtain ⟨fb, fa⟩ := f.2.resolve_left hg'
      dsimp only
      -- the guard
      have f1 : Fine w R ({ s with defined := w.guard h :: s.defined } : St H G) (h :: op) pd := by
        refine ⟨hs.good, fun x hx hgx => ?_, fun x hx => ?_, fun x hx => ?_⟩
        · rcases List.mem_cons.mp hgx with he | hgx
          · exact Or.inr (by rw [ha.differ x h hx hR he]; exact List.mem_cons_self ..)
          · exact (hs.got x hx hgx).imp id (List.mem_cons_of_mem _)
        · exact ⟨(hs.seen x hx).1, List.mem_cons_of_mem _ (hs.seen x hx).2⟩
        · exact (hs.full x hx).imp id fun h =>
            ⟨fun y hy => List.mem_cons_of_mem _ (h.1 y hy),
              fun y hy => List.mem_cons_of_mem _ (h.2 y hy)⟩
      have o1 : One w ({ s with defined := w.guard h :: s.defined } : St H G) :=
        ⟨fun x hx => (f1.seen x hx).2,
          fun a h1 b h2 he => ha.differ a b (f1.seen a h1).1 (f1.seen b h2).1 he⟩
      have k1 := keeps_fold (fun x s => keeps_enter (w := w) n x s) (w.before h) _ o1
      -- the includes before the declarations
      have hb := fine_fold (n := n) (op := h :: op) (pd := pd)
        (fun x s hx hs hf => ih x s (h :: op) pd hx hs hf) (w.before h)
        ({ s with defined := w.guard h :: s.defined } : St H G) (ha.before h hR) f1 (by
          intro x hx
          obtain ⟨b1, b2, b3⟩ := fb x hx
          have hlow : ∀ o ∈ h :: op, r x < r o := by
            intro o hoo
            rcases List.mem_cons.mp hoo with rfl | hoo
            · exact ho.below _ x hx
            · exact b2 o hoo
          refine ⟨by omega, b3.imp (List.mem_cons_of_mem _) fun b3 => ⟨fun y hy => ?_, fun _ => ?_⟩⟩
          · have hyx := ho.below x y hy
            exact ⟨by omega, fun o hoo => Nat.lt_trans hyx (hlow o hoo), Or.inr (by omega)⟩
          · exact ⟨hlow, by omega⟩)
      generalize (w.before h).foldl (fun s x => enter w n x s)
        { s with defined := w.guard h :: s.defined } = s2 at hb k1
      obtain ⟨f2, d2, b2⟩ := hb
      have hnk : h ∉ s2.known := fun hk =>
        hg' (hs.seen h (k1.shut h hk (List.mem_cons_self ..))).2
      -- the declarations
      have hall : ∀ x ∈ w.before h, x ∈ s2.known := by
        intro x hx
        rcases f2.got x (ha.before h hR x hx) (b2 x hx) with hk | hop
        · exact hk
        · rcases List.mem_cons.mp hop with rfl | hop
          · exact absurd (ho.below _ _ hx) (Nat.lt_irrefl _)
          · exact absurd ((fb x hx).2.1 x hop) (Nat.lt_irrefl _)
      have f3 : Fine w R (declare w h s2) op (h :: pd) := by
        refine ⟨?_, fun x hx hgx => ?_, fun x hx => ?_, fun x hx => ?_⟩
        · have h1 : (w.uses h).any (fun x => !s2.known.contains x) = false := by
            rw [List.any_eq_false]
            intro x hx
            simpa using hall x (ho.uses h x hx)
          have h2 : s2.known.contains h = false := by simpa using hnk
          show (s2.bad || (w.uses h).any (fun x => !s2.known.contains x) || s2.known.contains h)
            = false
          rw [f2.good, h1, h2]; rfl
        · rcases f2.got x hx hgx with hk | hop
          · exact Or.inl (List.mem_cons_of_mem _ hk)
          · rcases List.mem_cons.mp hop with rfl | hop
            · exact Or.inl (List.mem_cons_self ..)
            · exact Or.inr hop
        · rcases List.mem_cons.mp hx with rfl | hx
          · exact ⟨hR, d2 _ (List.mem_cons_self ..)⟩
          · exact f2.seen x hx
        · rcases List.mem_cons.mp hx with rfl | hx
          · exact Or.inl (List.mem_cons_self ..)
          · exact (f2.full x hx).imp (List.mem_cons_of_mem _) id
      have hd3 : w.guard h ∈ (declare w h s2).defined := d2 _ (List.mem_cons_self ..)
      -- the includes after the declarations
      obtain ⟨f4, d4, a4⟩ := fine_fold (n := n) (op := op) (pd := h :: pd)
        (fun x s hx hs hf => ih x s op (h :: pd) hx hs hf) (w.after h) (declare w h s2)
        (ha.after h hR) f3 (by
          intro t ht
          obtain ⟨e1, e2⟩ := fa (List.ne_nil_of_mem ht)
          obtain ⟨t1, t2⟩ := ho.tail h t ht
          refine ⟨by omega, Or.inr ⟨fun y hy => ?_, fun hne => absurd t1 hne⟩⟩
          rcases t2 y hy with rfl | hlt
          · exact ⟨by omega, e1, Or.inl hd3⟩
          · exact ⟨by omega, fun o hoo => Nat.lt_trans hlt (e1 o hoo), Or.inr (by omega)⟩)
      have hkeep : ∀ g ∈ s2.defined, g ∈ (List.foldl (fun s x => enter w n x s)
          (declare w h s2) (w.after h)).defined := fun g hg => d4 g hg
      refine ⟨⟨f4.good, f4.got, f4.seen, fun x hx => ?_⟩,
        fun g hg => d4 g (d2 g (List.mem_cons_of_mem _ hg)), d4 _ hd3⟩
      rcases f4.full x hx with hp | hp
      · rcases List.mem_cons.mp hp with rfl | hp
        · exact Or.inr ⟨fun y hy => hkeep _ (b2 y hy), a4⟩
        · exact Or.inl hp
      · exact Or.inr hp

/-- Including headers none of which, with all they include, share a guard. -/
theorem fine_unit {R : H → Prop} {r : H → Nat} (ho : Order w r) (ha : Apart w R) (hs : List H)
    (hR : ∀ h ∈ hs, R h) :
    Fine w R (unit w hs) [] [] ∧ ∀ h ∈ hs, w.guard h ∈ (unit w hs).defined := by
  have := fine_fold (n := depth) (op := []) (pd := [])
    (fun x s hx hs hf => fine_enter ho ha depth x s [] [] hx hs hf) hs
    (⟨[], [], false⟩ : St H G) hR
    ⟨rfl, fun _ _ h => absurd h List.not_mem_nil, fun _ h => absurd h List.not_mem_nil,
      fun _ h => absurd h List.not_mem_nil⟩ (by
      intro h _
      have hdp := ho.depth h
      refine ⟨by omega, Or.inr ⟨fun x hx => ?_, fun _ => ?_⟩⟩
      · have := ho.below h x hx
        exact ⟨by omega, fun _ h => absurd h List.not_mem_nil, Or.inr (by omega)⟩
      · exact ⟨fun _ h => absurd h List.not_mem_nil, by omega⟩)
  exact ⟨this.1, this.2.2⟩

end Cobalt.Inc
