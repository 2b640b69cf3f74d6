import Verif.Comb.PropsResult
import Verif.Again.Stack
import Verif.Again.Spec
/-! The invariants of races over the same sources. -/
namespace Cobalt.Again

open Comb (Cfg)

variable {S : Src} {I : S.σ → Prop}

theorem handedTo_cons (s : St S) (r : Nat) (x : Nat × Nat × S.γ) :
    handedTo { s with handed := x :: s.handed } r = if x.1 = r then x.2 :: handedTo s r else handedTo s r := by
  unfold handedTo
  rw [List.filterMap_cons]
  split <;> split <;> simp_all

/-- `evs`: what the present race has seen. -/
structure Good (I : S.σ → Prop) (c : Cfg) (s : St S) (evs : List Comb.Ev) : Prop where
  sub : s.ub = false
  cub : s.comb.ub = false
  src : ∀ i, I (s.src i) ∧ S.ub (s.src i) = false
  legal : Comb.Legal c {} evs
  comb : s.comb = Comb.St.run c evs
  ends : evs.filterMap Comb.Ev.ends = (handedTo s s.round).reverse.map fun x => (x.1, S.out x.2)
  claims : ∀ e ∈ evs, e.claims = e.ends.map Prod.fst
  plain : Comb.Plain s.comb
  waits : ∀ i, S.waits (s.src i) = if s.comb.child i = .waiting then some s.round else none
  le : ∀ x ∈ s.handed, x.1 ≤ s.round
  log : ∀ i, S.log (s.src i) = s.handed.filterMap fun x => if x.2.1 = i then some (x.1, x.2.2) else none
  gave : s.gave.map Prod.fst = (List.range s.round).reverse
  old : ∀ r res, (r, res) ∈ s.gave → ∃ i g, (handedTo s r).getLast? = some (i, g) ∧ res = given i (S.out g)

theorem legal_snoc {c : Cfg} : ∀ (evs : List Comb.Ev) {s : Comb.St} {e : Comb.Ev}, Comb.Legal c s evs →
    (s.steps c evs).can c e = true → Comb.Legal c s (evs ++ [e])
  | [], _, _, _, h => ⟨h, trivial⟩
  | _ :: evs, _, _, h, k => ⟨h.1, legal_snoc evs h.2 k⟩

theorem run_snoc (c : Cfg) (evs : List Comb.Ev) (e : Comb.Ev) :
    Comb.St.run c (evs ++ [e]) = (Comb.St.run c evs).step c e := by
  unfold Comb.St.run Comb.St.steps; rw [List.foldl_append]; rfl

theorem Good.start {s : St S} (h : Start I s) (c : Cfg) : Good I c s [] where
  sub := h.ub
  cub := by rw [h.comb]
  src i := ⟨(h.src i).1, (h.src i).2.1⟩
  legal := trivial
  comb := h.comb
  ends := by simp [handedTo, h.handed]
  claims := by simp
  plain := by intro f hf; rw [h.comb] at hf; simp at hf
  waits i := by rw [(h.src i).2.2.1, h.comb]; rfl
  le := by simp [h.handed]
  log i := by rw [(h.src i).2.2.2, h.handed]; rfl
  gave := by simp [h.gave, h.round]
  old := by simp [h.gave]

theorem Good.all {c : Cfg} (hc : Proper c) {s : St S} {evs : List Comb.Ev} (h : Good I c s evs) :
    ∃ g nc, Comb.All c g nc s.comb evs := by
  have := Comb.All.run hc.ok h.legal (by rw [← h.comb]; exact h.cub)
  rw [← h.comb] at this
  exact ⟨_, _, this⟩

theorem upd_self {α : Type} (f : Nat → α) (i : Nat) : Comb.upd f i (f i) = f := by
  funext j; rw [Comb.upd_apply]; split
  · rename_i h; rw [h]
  · rfl

/-- The race does something that is not about a source. -/
theorem Good.calm {c : Cfg} (hc : Proper c) {s : St S} {evs : List Comb.Ev} (h : Good I c s evs) {e : Comb.Ev}
    (hcan : s.comb.can c e = true) (hu : (s.comb.step c e).ub = false)
    (he : (∃ d, e = .ret d) ∨ e = .begin ∨ e = .interrupt ∨ ∃ ct, e = .cancel ct) :
    Good I c { s with comb := s.comb.step c e } (evs ++ [e]) := by
  obtain ⟨g, nc, ha⟩ := h.all hc
  have hw : ∀ i, (s.comb.step c e).child i = .waiting ↔ s.comb.child i = .waiting := by
    have := Comb.step_sim ha.inv ha.ub hcan
    rcases he with ⟨d, rfl⟩ | rfl | rfl | ⟨ct, rfl⟩ <;> exact this.waiting
  have h1 : e.ends = none ∧ e.claims = none := by
    rcases he with ⟨d, rfl⟩ | rfl | rfl | ⟨ct, rfl⟩ <;> exact ⟨rfl, rfl⟩
  refine { h with
    cub := hu
    legal := legal_snoc evs h.legal (by rw [← show s.comb = Comb.St.steps c {} evs from h.comb]; exact hcan)
    comb := by rw [run_snoc, ← h.comb]
    ends := ?_
    claims := ?_
    plain := ?_
    waits := ?_
    .. }
  · rw [List.filterMap_append, h.ends]; simp [h1.1, handedTo]
  · intro x hx
    rcases List.mem_append.1 hx with hx | hx
    · exact h.claims x hx
    · rw [List.mem_singleton.1 hx, h1.1, h1.2]; rfl
  · refine h.plain.step hc.race ?_ ?_ <;> rcases he with ⟨d, rfl⟩ | rfl | rfl | ⟨ct, rfl⟩ <;> simp
  · intro i
    rw [h.waits i]
    dsimp only
    simp only [hw i]

/-- A source that is waited for hands over something. -/
theorem Good.ends' {c : Cfg} (hc : Proper c) {s : St S} {evs : List Comb.Ev} (h : Good I c s evs) {i : Nat} {t : S.σ}
    {g : S.γ} {e : Comb.Ev} (hcan : s.comb.can c e = true) (hu : (s.comb.step c e).ub = false) (ht : I t ∧ S.ub t = false)
    (hg : S.Gives (s.src i) t s.round g) (he : e = .fin i (S.out g) ∨ ∃ d, e = .ready i (S.out g) d) :
    Good I c { s with
      src := Comb.upd s.src i t, comb := s.comb.step c e, handed := (s.round, i, g) :: s.handed, ub := S.ub t }
      (evs ++ [e]) := by
  obtain ⟨g', nc, ha⟩ := h.all hc
  have hw : ∀ j, (s.comb.step c e).child j = .waiting ↔ (j ≠ i ∧ s.comb.child j = .waiting) := by
    have := Comb.step_sim ha.inv ha.ub hcan
    intro j
    rcases he with rfl | ⟨d, rfl⟩
    · rw [this.waiting j, (Comb.record_frame c s.comb i _ _).1, Comb.upd_apply]
      split <;> simp_all
    · rw [this.waiting j, (Comb.record_frame c _ i _ _).1, Comb.upd_apply]
      split <;> simp_all
  have h1 : e.ends = some (i, S.out g) ∧ e.claims = some i := by
    rcases he with rfl | ⟨d, rfl⟩ <;> exact ⟨rfl, rfl⟩
  have h2 : ∀ r, handedTo { s with
      src := Comb.upd s.src i t, comb := s.comb.step c e, handed := (s.round, i, g) :: s.handed, ub := S.ub t } r =
      if s.round = r then (i, g) :: handedTo s r else handedTo s r := fun r => handedTo_cons s r (s.round, i, g)
  have lt : ∀ r ∈ s.gave.map Prod.fst, r < s.round := by
    rw [h.gave]; simp
  refine { h with
    sub := ht.2
    cub := hu
    src := ?_
    legal := legal_snoc evs h.legal (by rw [← show s.comb = Comb.St.steps c {} evs from h.comb]; exact hcan)
    comb := by rw [run_snoc, ← h.comb]
    ends := ?_
    claims := ?_
    plain := ?_
    waits := ?_
    le := ?_
    log := ?_
    gave := h.gave
    old := ?_ }
  · intro j; dsimp only; rw [Comb.upd_apply]; split
    · exact ht
    · exact h.src j
  · rw [h2, if_pos rfl, List.filterMap_append, h.ends]; simp [h1.1]
  · intro x hx
    rcases List.mem_append.1 hx with hx | hx
    · exact h.claims x hx
    · rw [List.mem_singleton.1 hx, h1.1, h1.2]; rfl
  · refine h.plain.step hc.race ?_ ?_ <;> rcases he with rfl | ⟨d, rfl⟩ <;> simp
  · intro j
    dsimp only
    simp only [hw j, Comb.upd_apply]
    by_cases hj : j = i
    · simp [hj, hg.waits]
    · simp [hj, h.waits j]
  · intro x hx
    rcases List.mem_cons.1 hx with rfl | hx
    · exact Nat.le_refl _
    · exact h.le x hx
  · intro j
    dsimp only
    rw [List.filterMap_cons, Comb.upd_apply]
    by_cases hj : j = i
    · subst hj; simp [hg.log, h.log j]
    · simp [hj, Ne.symm hj, h.log j]
  · intro r res hr
    rw [h2, if_neg]
    · exact h.old r res hr
    · have := lt r (List.mem_map.2 ⟨_, hr, rfl⟩); omega

/-- A source does something that concerns no awaiter. -/
theorem Good.stays {c : Cfg} {s : St S} {evs : List Comb.Ev} (h : Good I c s evs) {i : Nat} {t : S.σ}
    (ht : I t ∧ S.ub t = false) (hs : S.Stays (s.src i) t) :
    Good I c { s with src := Comb.upd s.src i t, comb := s.comb, ub := S.ub t } evs := by
  refine { h with sub := ht.2, src := ?_, waits := ?_, log := ?_, .. }
  · intro j; dsimp only; rw [Comb.upd_apply]; split
    · exact ht
    · exact h.src j
  · intro j; dsimp only; rw [Comb.upd_apply]; split
    · rename_i hj; subst hj; rw [hs.waits]; exact h.waits j
    · exact h.waits j
  · intro j; dsimp only; rw [Comb.upd_apply]; split
    · rename_i hj; subst hj; rw [hs.log]; exact h.log j
    · exact h.log j

theorem gave_stays {s t : S.σ} (h : S.log t = S.log s) : S.gave s t = none := by
  unfold Src.gave; rw [h, if_neg (by omega)]

theorem gave_gives {s t : S.σ} {a : Nat} {g : S.γ} (h : S.Gives s t a g) : S.gave s t = some g := by
  unfold Src.gave; rw [h.log, if_pos (by simp)]; rfl

theorem asked_eq {s : St S} {i : Nat} (h : s.asked = some i) : s.comb.stack.head? = some (.asking i) := by
  unfold St.asked at h
  split at h
  · rename_i hs; rw [hs]; simp_all
  · simp at h

theorem told_eq {s : St S} {i : Nat} (h : s.told = some i) : ∃ co n rest, s.comb.stack = .intr i co n :: rest := by
  unfold St.told at h
  split at h
  · rename_i hs; simp only [Option.some.injEq] at h; subst h; exact ⟨_, _, _, hs⟩
  · simp at h

/-- What a step is. -/
inductive Case (I : S.σ → Prop) (c : Cfg) (s : St S) : Ev S → St S → Prop where
  | calm {e : Ev S} (ce : Comb.Ev) (he : e ≠ .next ∧ ((∃ d, ce = .ret d ∧ e = .ret d) ∨ (ce = .begin ∧ e = .begin) ∨
      (ce = .interrupt ∧ e = .interrupt) ∨ ∃ ct, ce = .cancel ct ∧ e = .cancel ct)) (hcan : s.comb.can c ce = true) :
      Case I c s e { s with comb := s.comb.step c ce }
  | ready (i p : Nat) (d : Bool) (g : S.γ) (hi : s.asked = some i) (hI : I (S.ask (s.src i) s.round p))
      (hg : S.Gives (s.src i) (S.ask (s.src i) s.round p) s.round g)
      (hcan : s.comb.can c (.ready i (S.out g) d) = true) :
      Case I c s (.ask p d) { s with
        src := Comb.upd s.src i (S.ask (s.src i) s.round p), comb := s.comb.step c (.ready i (S.out g) d)
        handed := (s.round, i, g) :: s.handed, ub := S.ub (S.ask (s.src i) s.round p) }
  | notReady (i p : Nat) (d : Bool) (hi : s.asked = some i) (hI : I (S.ask (s.src i) s.round p))
      (hl : S.log (S.ask (s.src i) s.round p) = S.log (s.src i))
      (hw : S.waits (S.ask (s.src i) s.round p) = some s.round) (hcan : s.comb.can c (.notReady i) = true) :
      Case I c s (.ask p d) { s with
        src := Comb.upd s.src i (S.ask (s.src i) s.round p), comb := s.comb.step c (.notReady i)
        ub := S.ub (S.ask (s.src i) s.round p) }
  | stays (i : Nat) (b : S.β) (hI : I (S.act (s.src i) b)) (hf : s.free = true) (hs : S.Stays (s.src i) (S.act (s.src i) b)) :
      Case I c s (.act i b) { s with
        src := Comb.upd s.src i (S.act (s.src i) b), comb := s.comb, ub := S.ub (S.act (s.src i) b) }
  | gives (i : Nat) (b : S.β) (g : S.γ) (hI : I (S.act (s.src i) b)) (hf : s.free = true)
      (hg : S.Gives (s.src i) (S.act (s.src i) b) s.round g) (hw : s.comb.child i = .waiting)
      (hcan : s.comb.can c (.fin i (S.out g)) = true) :
      Case I c s (.act i b) { s with
        src := Comb.upd s.src i (S.act (s.src i) b), comb := s.comb.step c (.fin i (S.out g))
        handed := (s.round, i, g) :: s.handed, ub := S.ub (S.act (s.src i) b) }
  | cut (i : Nat) (g : S.γ) (hI : I (S.intr (s.src i) s.round)) (hi : s.told = some i) (hc : S.cut g = true)
      (hg : S.Gives (s.src i) (S.intr (s.src i) s.round) s.round g) (hw : s.comb.child i = .waiting)
      (hcan : s.comb.can c (.fin i (S.out g)) = true) :
      Case I c s .intr { s with
        src := Comb.upd s.src i (S.intr (s.src i) s.round), comb := s.comb.step c (.fin i (S.out g))
        handed := (s.round, i, g) :: s.handed, ub := S.ub (S.intr (s.src i) s.round) }
  | next (ho : s.comb.over) (hs : s.comb.stack = []) :
      Case I c s .next { s with comb := {}, round := s.round + 1, gave := (s.round, s.comb.resume c) :: s.gave }

theorem Good.cases (hS : S.Ok I) {c : Cfg} (hc : Proper c) {s : St S} {evs : List Comb.Ev} (h : Good I c s evs)
    {e : Ev S} (hcan : s.can c e = true) (hu : (s.step c e).ub = false) : Case I c s e (s.step c e) := by
  have hpos : ¬(s.ub || s.comb.ub || !s.can c e) = true := by simp [h.sub, h.cub, hcan]
  have fin : ∀ i o, s.comb.child i = .waiting → s.comb.can c (.fin i o) = true := by
    intro i o hw; simp [Comb.St.can, hw, h.plain.inTxn i]
  have wait : ∀ i a, S.waits (s.src i) = some a → s.comb.child i = .waiting ∧ a = s.round := by
    intro i a ha
    rw [h.waits i] at ha
    split at ha
    · rename_i hx; exact ⟨hx, by simpa using ha.symm⟩
    · simp at ha
  unfold St.step at hu ⊢
  rw [if_neg hpos] at hu ⊢
  cases e with
  | begin => exact .calm .begin ⟨by simp, by simp⟩ hcan
  | ask p d =>
    simp only [St.can, Option.isSome_iff_exists] at hcan
    obtain ⟨i, hi⟩ := hcan
    simp only [hi] at hu ⊢
    have hh := asked_eq hi
    have hnw : S.waits (s.src i) = none := by
      obtain ⟨_, _, ha⟩ := h.all hc
      have : s.comb.child i = .asking := (ha.inv.asking i).2 (by rw [Comb.tags_of_head hh]; simp [Comb.Frame.tag])
      rw [h.waits i, this]; simp
    have hub : S.ub (S.ask (s.src i) s.round p) = false := by
      unfold St.move at hu; split at hu <;> exact hu
    unfold St.move
    rcases hS.ask _ s.round p (h.src i).1 (h.src i).2 hnw hub with ⟨hI, ⟨h1, h2⟩ | ⟨g, hg⟩⟩
    · rw [gave_stays h1]
      exact .notReady i p d hi hI h1 h2 (by simp [Comb.St.can, hh])
    · rw [gave_gives hg]
      exact .ready i p d g hi hI hg (by simp [Comb.St.can, hh])
  | act i b =>
    simp only [St.can, Bool.and_eq_true, decide_eq_true_eq] at hcan
    have hub : S.ub (S.act (s.src i) b) = false := by
      dsimp only at hu; unfold St.move at hu; split at hu <;> exact hu
    dsimp only
    unfold St.move
    rcases hS.act _ b (h.src i).1 (h.src i).2 hcan.1.2 hub with ⟨hI, h1 | ⟨a, g, ha, hg⟩⟩
    · rw [gave_stays h1.log]
      exact .stays i b hI hcan.2 h1
    · rw [gave_gives hg]
      obtain ⟨h1, rfl⟩ := wait i a ha
      exact .gives i b g hI hcan.2 hg h1 (fin i _ h1)
  | intr =>
    simp only [St.can] at hcan
    split at hcan
    · rename_i i hi
      simp only [beq_iff_eq] at hcan
      simp only [hi] at hu ⊢
      have hub : S.ub (S.intr (s.src i) s.round) = false := by
        unfold St.move at hu; split at hu <;> exact hu
      obtain ⟨hI, g, h1, hg⟩ := hS.intr _ s.round (h.src i).1 (h.src i).2 (by rw [h.waits i, if_pos hcan]) hub
      unfold St.move
      rw [gave_gives hg]
      exact .cut i g hI hi h1 hg hcan (fin i _ hcan)
    · simp at hcan
  | ret d =>
    simp only [St.can, Bool.and_eq_true] at hcan
    exact .calm (.ret d) ⟨by simp, by simp⟩ hcan.1
  | cancel ct =>
    simp only [St.can, Bool.and_eq_true] at hcan
    exact .calm (.cancel ct) ⟨by simp, by simp⟩ hcan.1
  | interrupt =>
    simp only [St.can, Bool.and_eq_true] at hcan
    exact .calm .interrupt ⟨by simp, by simp⟩ hcan.1
  | next =>
    simp only [St.can, Bool.and_eq_true, decide_eq_true_eq, List.isEmpty_iff] at hcan
    exact .next hcan.1 hcan.2

theorem filterMap_eq {α β : Type} {f g : α → Option β} : ∀ {l : List α}, (∀ x ∈ l, f x = g x) → l.filterMap f = l.filterMap g
  | [], _ => rfl
  | x :: l, h => by
    rw [List.filterMap_cons, List.filterMap_cons, h x (by simp), filterMap_eq (fun y hy => h y (by simp [hy]))]

/-- How the race that has ended came out. -/
theorem Good.result {c : Cfg} (hc : Proper c) {s : St S} {evs : List Comb.Ev} (h : Good I c s evs) (ho : s.comb.over) :
    ∃ i g, (handedTo s s.round).getLast? = some (i, g) ∧ s.comb.resume c = given i (S.out g) := by
  obtain ⟨i, o, h1, h2, h3, h4⟩ := Comb.C18_race_values hc.ok hc.race hc.void h.legal (by rw [← h.comb]; exact h.cub)
    (by rw [← h.comb]; exact ho)
  have hcl : evs.filterMap Comb.Ev.claims = (evs.filterMap Comb.Ev.ends).map Prod.fst := by
    rw [List.map_filterMap]
    exact filterMap_eq h.claims
  unfold Comb.winner at h1
  unfold Comb.outcome at h2
  rw [hcl, h.ends] at h1
  rw [h.ends] at h2
  rw [← h.comb] at h3 h4
  cases hl : (handedTo s s.round).reverse with
  | nil => rw [hl] at h1; simp at h1
  | cons x l =>
    obtain ⟨j, g⟩ := x
    rw [hl] at h1 h2
    simp only [List.map_cons, List.head?_cons, Option.some.injEq] at h1
    subst h1
    simp only [List.map_cons, List.findSome?_cons, if_true, Option.some.injEq] at h2
    subst h2
    refine ⟨j, g, ?_, ?_⟩
    · rw [List.getLast?_eq_head?_reverse, hl]; rfl
    · cases hg : S.out g with
      | ok v => have := h3 v hg; rw [hc.allVoid] at this; exact this
      | err e => exact h4 e hg

theorem Good.step (hS : S.Ok I) {c : Cfg} (hc : Proper c) {s : St S} {evs : List Comb.Ev} (h : Good I c s evs)
    {e : Ev S} (hcan : s.can c e = true) (hu : (s.step c e).ub = false) (hcu : (s.step c e).comb.ub = false) :
    ∃ evs', Good I c (s.step c e) evs' := by
  have hcs := h.cases hS hc hcan hu
  clear hcan
  generalize s.step c e = t at *
  cases hcs with
  | calm ce he hcan =>
    refine ⟨_, h.calm hc hcan hcu ?_⟩
    rcases he.2 with ⟨d, h1, -⟩ | ⟨h1, -⟩ | ⟨h1, -⟩ | ⟨ct, h1, -⟩
    · exact Or.inl ⟨d, h1⟩
    · exact Or.inr (Or.inl h1)
    · exact Or.inr (Or.inr (Or.inl h1))
    · exact Or.inr (Or.inr (Or.inr ⟨ct, h1⟩))
  | ready i p d g hi hI hg hcan => exact ⟨_, h.ends' hc hcan hcu ⟨hI, hu⟩ hg (Or.inr ⟨d, rfl⟩)⟩
  | notReady i p d hi hI hl hw hcan =>
    obtain ⟨_, _, ha⟩ := h.all hc
    have hsim := Comb.step_sim ha.inv ha.ub hcan
    refine ⟨evs ++ [.notReady i], { h with
      sub := hu
      cub := hcu
      src := ?_
      legal := legal_snoc evs h.legal (by rw [← show s.comb = Comb.St.steps c {} evs from h.comb]; exact hcan)
      comb := by rw [run_snoc, ← h.comb]
      ends := ?_
      claims := ?_
      plain := h.plain.step hc.race (by simp) (by simp)
      waits := ?_
      log := ?_ }⟩
    · intro j; dsimp only; rw [Comb.upd_apply]; split
      · exact ⟨hI, hu⟩
      · exact h.src j
    · rw [List.filterMap_append, h.ends]; simp [Comb.Ev.ends, handedTo]
    · intro x hx
      rcases List.mem_append.1 hx with hx | hx
      · exact h.claims x hx
      · rw [List.mem_singleton.1 hx]; rfl
    · intro j
      dsimp only
      simp only [hsim.waiting j, Comb.upd_apply]
      by_cases hj : j = i
      · simp [hj, hw]
      · simp [hj, h.waits j]
    · intro j; dsimp only; rw [Comb.upd_apply]; split
      · rename_i hj; subst hj; rw [hl]; exact h.log j
      · exact h.log j
  | stays i b hI hf hs => exact ⟨_, h.stays ⟨hI, hu⟩ hs⟩
  | gives i b g hI hf hg hw hcan => exact ⟨_, h.ends' hc hcan hcu ⟨hI, hu⟩ hg (Or.inl rfl)⟩
  | cut i g hI hi hx hg hw hcan => exact ⟨_, h.ends' hc hcan hcu ⟨hI, hu⟩ hg (Or.inl rfl)⟩
  | next ho hs =>
    obtain ⟨_, _, ha⟩ := h.all hc
    have hn : ∀ r, s.round < r → handedTo s r = [] := by
      intro r hr
      unfold handedTo
      rw [List.filterMap_eq_nil_iff]
      intro x hx
      have := h.le x hx
      rw [if_neg (by omega)]
    have hnw : ∀ i, s.comb.child i ≠ .waiting := by
      intro i hi
      obtain ⟨l, -, h2, h3⟩ := ha.inv.uses
      have := (h2 i).2 (by rw [hi]; rfl)
      have h4 := ha.inv.over ho
      rw [← h3] at h4
      rw [List.length_eq_zero_iff.1 h4] at this
      simp at this
    refine ⟨[], { h with
      cub := rfl
      legal := trivial
      comb := rfl
      ends := ?_
      claims := by simp
      plain := by intro f hf; simp at hf
      waits := ?_
      le := fun x hx => Nat.le_succ_of_le (h.le x hx)
      gave := ?_
      old := ?_ }⟩
    · show [] = ((handedTo s (s.round + 1)).reverse.map fun x => (x.1, S.out x.2))
      rw [hn _ (Nat.lt_succ_self _)]; rfl
    · intro i; dsimp only; rw [h.waits i, if_neg (hnw i)]; rfl
    · simp [h.gave, List.range_succ]
    · intro r res hr
      rcases List.mem_cons.1 hr with hr | hr
      · simp only [Prod.mk.injEq] at hr
        obtain ⟨rfl, rfl⟩ := hr
        exact h.result hc ho
      · exact h.old r res hr

/-- Whoever handed over something to a race after the first did so because it was
interrupted. -/
structure Sharp (c : Cfg) (s : St S) : Prop where
  hush : Comb.Hushed s.comb
  lone : Comb.Lone s.comb
  cut : ∀ r, ∀ x ∈ (handedTo s r).dropLast, S.cut x.2 = true

theorem Sharp.start {s : St S} (h : Start I s) (c : Cfg) : Sharp c s where
  hush := by rw [h.comb]; intro hx; simp at hx
  lone := by rw [h.comb]; intro j hj; simp at hj
  cut := by intro r; simp [handedTo, h.handed]

/-- If something was handed over to the present race, it is decided. -/
theorem Good.decided {c : Cfg} (hc : Proper c) {s : St S} {evs : List Comb.Ev} (h : Good I c s evs)
    (hn : handedTo s s.round ≠ []) : s.comb.index ≠ none := by
  obtain ⟨_, _, ha⟩ := h.all hc
  rw [ha.hist.race hc.race]
  have hcl : evs.filterMap Comb.Ev.claims = (evs.filterMap Comb.Ev.ends).map Prod.fst := by
    rw [List.map_filterMap]
    exact filterMap_eq h.claims
  unfold Comb.winner
  rw [hcl, h.ends]
  cases hl : (handedTo s s.round).reverse with
  | nil => simp at hl; exact absurd hl hn
  | cons x l => simp

theorem free_stack {s : St S} (h : s.free = true) :
    (∀ i, s.comb.stack.head? ≠ some (.asking i)) ∧ ∀ i co n rest, s.comb.stack ≠ .intr i co n :: rest := by
  unfold St.free St.asked St.told at h
  constructor
  · intro i hi
    cases hs : s.comb.stack with
    | nil => simp [hs] at hi
    | cons f rest => rw [hs] at hi; simp only [List.head?_cons, Option.some.injEq] at hi; subst hi; simp [hs] at h
  · intro i co n rest hs
    simp [hs] at h

theorem Sharp.step (hS : S.Ok I) {c : Cfg} (hc : Proper c) {s : St S} {evs : List Comb.Ev} (h : Good I c s evs)
    (k : Sharp c s) {e : Ev S} (hcan : s.can c e = true) (hm : e.marked) (hu : (s.step c e).ub = false)
    (hcu : (s.step c e).comb.ub = false) : Sharp c (s.step c e) := by
  have hcs := h.cases hS hc hcan hu
  obtain ⟨_, _, ha⟩ := h.all hc
  generalize s.step c e = t at *
  have ask : (∀ i, s.comb.stack.head? ≠ some (.asking i)) → ∀ j, s.comb.child j ≠ .asking :=
    fun h1 j hj => h1 j (k.lone j hj)
  have cons : ∀ (t : S.σ) (cs : Comb.St) (i : Nat) (g : S.γ) (u : Bool), (handedTo s s.round ≠ [] → S.cut g = true) →
      ∀ r, ∀ x ∈ (handedTo { s with src := Comb.upd s.src i t, comb := cs, handed := (s.round, i, g) :: s.handed, ub := u } r).dropLast,
        S.cut x.2 = true := by
    intro t cs i g u hg r x hx
    rw [show handedTo { s with src := Comb.upd s.src i t, comb := cs, handed := (s.round, i, g) :: s.handed, ub := u } r =
      if s.round = r then (i, g) :: handedTo s r else handedTo s r from handedTo_cons s r (s.round, i, g)] at hx
    split at hx
    · rename_i hr
      subst hr
      cases hl : handedTo s s.round with
      | nil => rw [hl] at hx; simp at hx
      | cons y l =>
        rw [hl, List.dropLast_cons_of_ne_nil (by simp)] at hx
        rcases List.mem_cons.1 hx with rfl | hx
        · exact hg (by rw [hl]; simp)
        · exact k.cut s.round x (by rw [hl]; exact hx)
    · exact k.cut r x hx
  cases hcs with
  | calm ce he hcan' =>
    have htm : ce.tame s.comb := by
      rcases he.2 with ⟨d, rfl, rfl⟩ | ⟨rfl, rfl⟩ | ⟨rfl, rfl⟩ | ⟨ct, rfl, rfl⟩
      · refine ⟨hm, fun i co n rest hs => ?_⟩
        simp only [St.can, St.told, hs, Bool.and_eq_true, bne_iff_ne] at hcan
        exact hcan.2
      · trivial
      · simp only [St.can, Bool.and_eq_true] at hcan
        exact (free_stack hcan.2).2
      · simp only [St.can, Bool.and_eq_true] at hcan
        exact (free_stack hcan.2).2
    refine ⟨k.hush.step hc.race hc.intr ha hcan' htm hcu, k.lone.step hc.ok ha hcan' (Or.inr (Or.inr ?_)) hcu, k.cut⟩
    apply ask
    rcases he.2 with ⟨d, rfl, rfl⟩ | ⟨rfl, rfl⟩ | ⟨rfl, rfl⟩ | ⟨ct, rfl, rfl⟩
    · intro i hi
      cases hs : s.comb.stack with
      | nil => simp [hs] at hi
      | cons f rest =>
        rw [hs] at hi
        simp only [List.head?_cons, Option.some.injEq] at hi
        subst hi
        simp [Comb.St.can, hs] at hcan'
    · intro i hi
      have hp : s.comb.phase = .before := by simpa [Comb.St.can] using hcan'
      have := (ha.inv.before hp).2.1
      unfold Comb.St.tags at this
      simp only [List.map_eq_nil_iff] at this
      rw [this] at hi; simp at hi
    · simp only [St.can, Bool.and_eq_true] at hcan
      exact (free_stack hcan.2).1
    · simp only [St.can, Bool.and_eq_true] at hcan
      exact (free_stack hcan.2).1
  | ready i p d g hi hI hg hcan' =>
    refine ⟨k.hush.step hc.race hc.intr ha hcan' hm hcu, k.lone.step hc.ok ha hcan' (Or.inl ⟨_, _, _, rfl⟩) hcu,
      cons _ _ i g _ ?_⟩
    intro hn
    have : s.comb.child i = .asking :=
      (ha.inv.asking i).2 (by rw [Comb.tags_of_head (asked_eq hi)]; simp [Comb.Frame.tag])
    exact absurd this ((k.hush (h.decided hc hn)).1 i)
  | notReady i p d hi hI hl hw hcan' =>
    exact ⟨k.hush.step hc.race hc.intr ha hcan' trivial hcu, k.lone.step hc.ok ha hcan' (Or.inr (Or.inl ⟨_, rfl⟩)) hcu, k.cut⟩
  | stays i b hI hf hs => exact ⟨k.hush, k.lone, k.cut⟩
  | gives i b g hI hf hg hw hcan' =>
    have hna := ask (free_stack hf).1
    refine ⟨k.hush.step hc.race hc.intr ha hcan' hna hcu, k.lone.step hc.ok ha hcan' (Or.inr (Or.inr hna)) hcu,
      cons _ _ i g _ ?_⟩
    intro hn
    obtain ⟨n, co, since, rest, h1, -⟩ := (k.hush (h.decided hc hn)).2 i hw
    exact absurd h1 ((free_stack hf).2 _ _ _ _)
  | cut i g hI hi hx hg hw hcan' =>
    have hna : ∀ j, s.comb.child j ≠ .asking := by
      apply ask
      intro j hj
      obtain ⟨co, n, rest, h1⟩ := told_eq hi
      rw [h1] at hj; simp at hj
    exact ⟨k.hush.step hc.race hc.intr ha hcan' hna hcu, k.lone.step hc.ok ha hcan' (Or.inr (Or.inr hna)) hcu,
      cons _ _ i g _ (fun _ => hx)⟩
  | next ho hs =>
    exact ⟨fun hx => by simp at hx, fun j hj => by simp at hj, k.cut⟩

end Cobalt.Again
