import Verif.Tree.Emit
/-! Helper: what holds of trees of coroutines. -/
namespace Cobalt.Tree
open Prom (Out upd)

/-- The stage fits the position. -/
def Ph.fits : Ph → Pos → Prop
  | .unborn, q => q = .idle
  | .runs, q | .awaited _, q | .orphan, q => ∀ o, q ≠ .ended o
  | .over o, q | .taken o, q => q = .ended o
  | .gone, q => ∃ o, q = .ended o
  | .stuck, q => ∃ e, q = .ended (.exc e)

structure TI (asked : Prop) (s : St) (ph : Nat → Ph) : Prop extends M asked s ph where
  pos0 : 0 < s.next
  alive : ∀ c, ph c ≠ .unborn ↔ c < s.next
  root : ∀ a, ph 0 ≠ .awaited a
  new : ∀ c, s.next ≤ c → s.hist c = [] ∧ s.pos c = .idle ∧ s.kids c = [] ∧ s.cancelled c = false
  fits : ∀ c, (ph c).fits (s.pos c)
  par : ∀ p r, r ∈ s.kids p → s.par r = p ∧ p < r ∧ r < s.next
  own : ∀ r, 0 < r → r < s.next → r ∈ s.kids (s.par r)
  held : ∀ p r, r ∈ s.kids p → ((ph r).lost = true ↔ ∃ o, s.pos p = .ended o)
  on : ∀ p r, s.pos p = .on r → r ∈ s.kids p ∧ ph r = .awaited (s.aid p)
  awd : ∀ r a, ph r = .awaited a → s.pos (s.par r) = .on r
  stop : asked → s.cancelled 0 = true ∨ ∃ o, s.pos 0 = .ended o

theorem M.weaken {asked asked' : Prop} {s : St} {ph : Nat → Ph} (m : M asked s ph) (h : asked → asked') : M asked' s ph :=
  { m with
    why := fun c hc => (m.why c hc).elim (fun h1 => .inl ⟨h1.1, h h1.2⟩) .inr }

namespace TI
variable {asked : Prop} {s : St} {ph : Nat → Ph}

/-- A coroutine that does not await another goes on, or begins to wait for an operation. -/
theorem repos (i : TI asked s ph) {c : Nat} (hl : c < s.next) (h1 : ∀ r, s.pos c ≠ .on r) (h2 : ∀ o, s.pos c ≠ .ended o)
    {q : Pos} (g1 : ∀ r, q ≠ .on r) (g2 : ∀ o, q ≠ .ended o) (hq : (∃ x, q = .onOp x) → s.cancelled c = false)
    {h' : Nat → List Res} (hh : ∀ d, s.next ≤ d → h' d = []) {tl : Nat → Bool} (ht : ∀ d, d ≠ c → tl d = s.told d)
    (ht' : tl c = true → s.told c = true) :
    TI asked { s with pos := upd s.pos c q, hist := h', told := tl } ph := by
  refine { i with fwd := ?_, cl := ?_, toldc := ?_, new := ?_, fits := ?_, held := ?_, on := ?_, awd := ?_, stop := ?_ }
  · intro p r hp
    dsimp only at hp ⊢
    by_cases e : p = c
    · subst e; rw [upd_same] at hp; exact absurd hp (g1 r)
    · rw [upd_diff _ _ e] at hp; exact i.fwd p r hp
  · intro d hd
    dsimp only at hd ⊢
    by_cases e : d = c
    · subst e
      rw [upd_same]
      exact ⟨fun x hx => absurd hd (by rw [hq ⟨x, hx⟩]; simp), fun r hr => absurd hr (g1 r)⟩
    · rw [upd_diff _ _ e, ht d e]; exact i.cl d hd
  · intro d hd
    dsimp only at hd ⊢
    by_cases e : d = c
    · subst e; exact i.toldc _ (ht' hd)
    · rw [ht d e] at hd; exact i.toldc d hd
  · intro d hd
    dsimp only at hd ⊢
    rw [upd_diff _ _ (by omega)]
    exact ⟨hh d hd, (i.new d hd).2⟩
  · intro d
    dsimp only
    by_cases e : d = c
    · subst e
      rw [upd_same]
      have hf := i.fits d
      have ha := (i.alive d).2 hl
      revert hf ha
      cases ph d with
      | unborn => intro _ h; exact absurd rfl h
      | runs => intro _ _; exact g2
      | awaited a => intro _ _; exact g2
      | orphan => intro _ _; exact g2
      | over o => intro hf _; exact absurd hf (h2 o)
      | taken o => intro hf _; exact absurd hf (h2 o)
      | gone => intro hf _; obtain ⟨o, ho⟩ := hf; exact absurd ho (h2 o)
      | stuck => intro hf _; obtain ⟨e, he⟩ := hf; exact absurd he (h2 _)
    · rw [upd_diff _ _ e]; exact i.fits d
  · intro p r hr
    dsimp only at hr ⊢
    rw [i.held p r hr]
    by_cases e : p = c
    · subst e
      rw [upd_same]
      exact ⟨fun ⟨o, ho⟩ => absurd ho (h2 o), fun ⟨o, ho⟩ => absurd ho (g2 o)⟩
    · rw [upd_diff _ _ e]
  · intro p r hp
    dsimp only at hp ⊢
    by_cases e : p = c
    · subst e; rw [upd_same] at hp; exact absurd hp (g1 r)
    · rw [upd_diff _ _ e] at hp; exact i.on p r hp
  · intro r a hr
    dsimp only
    have h := i.awd r a hr
    rw [upd_diff _ _ (fun e => h1 r (by rw [← e]; exact h))]
    exact h
  · intro ha
    dsimp only
    rcases i.stop ha with h | ⟨o, ho⟩
    · exact .inl h
    · refine .inr ⟨o, ?_⟩
      rw [upd_diff _ _ (fun e => h2 o (by rw [← e]; exact ho))]
      exact ho

/-- What the coroutine awaited or did gave something. -/
theorem result (i : TI asked s ph) {c : Nat} (hl : c < s.next) (h1 : ∀ r, s.pos c ≠ .on r) (h2 : ∀ o, s.pos c ≠ .ended o)
    (r : Res) : TI asked (s.result c r) ph :=
  i.repos hl h1 h2 (q := .idle) (fun _ h => by cases h) (fun _ h => by cases h) (fun ⟨_, h⟩ => by cases h)
    (fun d hd => by rw [upd_diff _ _ (by omega)]; exact (i.new d hd).1) (fun _ _ => rfl) (fun h => h)

/-- A coroutine is started. -/
theorem start (i : TI asked s ph) {c b : Nat} (hl : c < s.next) (hc : s.pos c = .idle) :
    TI asked (s.act c (.start b)) (upd ph s.next .runs) := by
  have hub : ph s.next = .unborn := Classical.byContradiction fun h => absurd ((i.alive s.next).1 h) (Nat.lt_irrefl _)
  have hn := i.new s.next (Nat.le_refl _)
  have hps := (i.ps.create hub).1
  have hpar : ∀ r, r < s.next → upd s.par s.next c r = s.par r := fun r hr => upd_diff _ _ (by omega)
  have hph : ∀ r, r < s.next → upd ph s.next .runs r = ph r := fun r hr => upd_diff _ _ (by omega)
  have hkid : ∀ p r, r ∈ upd s.kids c (s.kids c ++ [s.next]) p → r ∈ s.kids p ∨ p = c ∧ r = s.next := by
    intro p r hr
    by_cases e : p = c
    · subst e; rw [upd_same] at hr
      rcases List.mem_append.1 hr with h | h
      · exact .inl h
      · exact .inr ⟨rfl, List.mem_singleton.1 h⟩
    · rw [upd_diff _ _ e] at hr; exact .inl hr
  have hkid' : ∀ p r, r ∈ s.kids p → r ∈ upd s.kids c (s.kids c ++ [s.next]) p := by
    intro p r hr
    by_cases e : p = c
    · subst e; rw [upd_same]; exact List.mem_append_left _ hr
    · rw [upd_diff _ _ e]; exact hr
  refine { ps := hps, fwd := ?_, cl := i.cl, orphan := ?_, why := ?_, toldc := i.toldc, pos0 := Nat.succ_pos _
           alive := ?_, root := ?_, new := ?_, fits := ?_, par := ?_, own := ?_, held := ?_, on := ?_, awd := ?_
           stop := i.stop }
  · intro p q hp
    obtain ⟨h1, h2, h3⟩ := i.fwd p q hp
    simp only [St.act]
    exact ⟨h1, by omega, by rw [hpar q h2]; exact h3⟩
  · intro d hd
    by_cases e : d = s.next
    · subst e; rw [upd_same] at hd; cases hd
    · rw [upd_diff _ _ e] at hd; exact i.orphan d hd
  · intro d hd
    simp only [St.act] at hd ⊢
    have hlt : d < s.next := by
      apply Classical.byContradiction
      intro h
      rw [(i.new d (by omega)).2.2.2] at hd
      cases hd
    rw [hpar d hlt, hph d hlt]
    exact i.why d hd
  · intro d
    simp only [St.act]
    by_cases e : d = s.next
    · subst e; rw [upd_same]; simp
    · rw [upd_diff _ _ e, i.alive]; omega
  · intro a
    rw [hph 0 i.pos0]; exact i.root a
  · intro d hd
    simp only [St.act] at hd ⊢
    rw [upd_diff _ _ (by omega), upd_diff _ _ (by omega)]
    exact i.new d (by omega)
  · intro d
    simp only [St.act]
    by_cases e : d = s.next
    · subst e; rw [upd_same, hn.2.1]; exact fun o h => by cases h
    · rw [upd_diff _ _ e]; exact i.fits d
  · intro p r hr
    simp only [St.act] at hr ⊢
    rcases hkid p r hr with h | ⟨rfl, rfl⟩
    · obtain ⟨g1, g2, g3⟩ := i.par p r h
      exact ⟨by rw [hpar r g3]; exact g1, g2, by omega⟩
    · exact ⟨upd_same _ _ _, hl, by omega⟩
  · intro r h0 hr
    simp only [St.act] at hr ⊢
    by_cases e : r = s.next
    · subst e; rw [upd_same, upd_same]; simp
    · rw [upd_diff _ _ e]; exact hkid' _ _ (i.own r h0 (by omega))
  · intro p r hr
    simp only [St.act] at hr ⊢
    rcases hkid p r hr with h | ⟨rfl, rfl⟩
    · rw [hph r (i.par p r h).2.2]; exact i.held p r h
    · rw [upd_same, hc]
      exact ⟨fun h => (by cases h), fun ⟨o, h⟩ => (by cases h)⟩
  · intro p r hp
    simp only [St.act] at hp ⊢
    obtain ⟨h1, h2⟩ := i.on p r hp
    exact ⟨hkid' p r h1, by rw [hph r (i.par p r h1).2.2]; exact h2⟩
  · intro r a hr
    simp only [St.act]
    have hlt : r ≠ s.next := fun e => by subst e; rw [upd_same] at hr; cases hr
    rw [upd_diff _ _ hlt] at hr ⊢
    exact i.awd r a hr

/-- Coroutine `r`, which `c` has started, and which `c` may await. -/
theorem kid (i : TI asked s ph) {c r : Nat} (hc : s.pos c = .idle) (hr : r ∈ s.kids c) :
    ph r = .runs ∨ (∃ o, ph r = .over o) ∨ ∃ o, ph r = .taken o := by
  have h1 : (ph r).lost ≠ true := fun h => by
    obtain ⟨o, ho⟩ := (i.held c r hr).1 h
    rw [hc] at ho; cases ho
  have h2 : ∀ a, ph r ≠ .awaited a := fun a h => by
    have := i.awd r a h
    rw [(i.par c r hr).1, hc] at this; cases this
  have h3 := (i.alive r).2 (i.par c r hr).2.2
  revert h1 h2 h3
  cases ph r <;> simp [Ph.lost]

/-- `c` begins to await a coroutine that runs. -/
theorem waits (i : TI asked s ph) {c r : Nat} (hl : c < s.next) (hc : s.pos c = .idle) (hk : s.cancelled c = false)
    (hr : r ∈ s.kids c) (hp : ph r = .runs) {t : Prom.St} (hps : PS t (s.awaits + 1) (upd ph r (.awaited s.awaits))) :
    TI asked { s with prom := t, pos := upd s.pos c (.on r), aid := upd s.aid c s.awaits, awaits := s.awaits + 1 }
      (upd ph r (.awaited s.awaits)) := by
  obtain ⟨p1, p2, p3⟩ := i.par c r hr
  have hlost : ∀ d, (upd ph r (.awaited s.awaits) d).lost = (ph d).lost := by
    intro d
    by_cases e : d = r
    · subst e; rw [upd_same, hp]; rfl
    · rw [upd_diff _ _ e]
  refine { i with ps := hps, fwd := ?_, cl := ?_, orphan := ?_, why := ?_, alive := ?_, root := ?_, new := ?_, fits := ?_
                  held := ?_, on := ?_, awd := ?_, stop := ?_ }
  · intro p q hq
    dsimp only at hq ⊢
    by_cases e : p = c
    · subst e; rw [upd_same] at hq; cases hq; exact ⟨p2, p3, p1⟩
    · rw [upd_diff _ _ e] at hq; exact i.fwd p q hq
  · intro d hd
    dsimp only at hd ⊢
    by_cases e : d = c
    · subst e; rw [hk] at hd; cases hd
    · rw [upd_diff _ _ e]; exact i.cl d hd
  · intro d hd
    by_cases e : d = r
    · subst e; rw [upd_same] at hd; cases hd
    · rw [upd_diff _ _ e] at hd; exact i.orphan d hd
  · intro d hd
    rw [hlost d]; exact i.why d hd
  · intro d
    by_cases e : d = r
    · subst e; rw [upd_same]; simpa using p3
    · rw [upd_diff _ _ e]; exact i.alive d
  · intro a
    rw [upd_diff _ _ (by omega)]; exact i.root a
  · intro d hd
    dsimp only at hd ⊢
    rw [upd_diff _ _ (by omega)]; exact i.new d hd
  · intro d
    dsimp only
    by_cases e : d = c
    · subst e
      rw [upd_same, upd_diff _ _ (by omega)]
      have hf := i.fits d
      rw [hc] at hf
      have ha := (i.alive d).2 hl
      revert hf ha
      cases ph d <;> simp [Ph.fits]
    · rw [upd_diff _ _ e]
      by_cases e' : d = r
      · subst e'; rw [upd_same]
        have hf := i.fits d
        rw [hp] at hf
        exact hf
      · rw [upd_diff _ _ e']; exact i.fits d
  · intro p q hq
    dsimp only at hq ⊢
    rw [hlost q, i.held p q hq]
    by_cases e : p = c
    · subst e; rw [upd_same, hc]; simp
    · rw [upd_diff _ _ e]
  · intro p q hq
    dsimp only at hq ⊢
    by_cases e : p = c
    · subst e; rw [upd_same] at hq; cases hq; rw [upd_same, upd_same]; exact ⟨hr, rfl⟩
    · rw [upd_diff _ _ e] at hq
      rw [upd_diff _ _ e]
      obtain ⟨h1, h2⟩ := i.on p q hq
      refine ⟨h1, ?_⟩
      rw [upd_diff _ _ (fun eq => e (by subst eq; exact (i.par p q h1).1.symm.trans p1))]
      exact h2
  · intro q a hq
    dsimp only
    by_cases e : q = r
    · subst e; rw [p1, upd_same]
    · rw [upd_diff _ _ e] at hq
      have h := i.awd q a hq
      rw [upd_diff _ _ (fun e' => by rw [e', hc] at h; cases h)]
      exact h
  · intro ha
    dsimp only
    rcases i.stop ha with h | ⟨o, ho⟩
    · exact .inl h
    · refine .inr ⟨o, ?_⟩
      rw [upd_diff _ _ (fun e => by rw [e, hc] at ho; cases ho)]
      exact ho

/-- The await of a coroutine that has ended ends at once. -/
theorem takes (i : TI asked s ph) {c r n : Nat} {o : Out} (hl : c < s.next) (hc : s.pos c = .idle)
    (hr : r ∈ s.kids c) (hp : ph r = .over o ∨ ph r = .taken o) {t : Prom.St} (hps : PS t n (upd ph r (.taken o)))
    (x : Res) :
    TI asked { s with prom := t, pos := upd s.pos c .idle, aid := upd s.aid c s.awaits, awaits := n
                      hist := upd s.hist c (s.hist c ++ [x]) } (upd ph r (.taken o)) := by
  obtain ⟨p1, p2, p3⟩ := i.par c r hr
  have hlost : ∀ d, (upd ph r (.taken o) d).lost = (ph d).lost := by
    intro d
    by_cases e : d = r
    · subst e; rw [upd_same]; rcases hp with hp | hp <;> rw [hp] <;> rfl
    · rw [upd_diff _ _ e]
  rw [← upd_id _ _ _ hc]
  refine { i with ps := hps, orphan := ?_, why := ?_, alive := ?_, root := ?_, new := ?_, fits := ?_
                  held := ?_, on := ?_, awd := ?_ }
  · intro d hd
    by_cases e : d = r
    · subst e; rw [upd_same] at hd; cases hd
    · rw [upd_diff _ _ e] at hd; exact i.orphan d hd
  · intro d hd
    rw [hlost d]; exact i.why d hd
  · intro d
    by_cases e : d = r
    · subst e; rw [upd_same]; simpa using p3
    · rw [upd_diff _ _ e]; exact i.alive d
  · intro a
    rw [upd_diff _ _ (by omega)]; exact i.root a
  · intro d hd
    dsimp only at hd ⊢
    rw [upd_diff _ _ (by omega)]; exact i.new d hd
  · intro d
    dsimp only
    by_cases e' : d = r
    · subst e'; rw [upd_same]
      have hf := i.fits d
      rcases hp with hp | hp <;> (rw [hp] at hf; exact hf)
    · rw [upd_diff _ _ e']; exact i.fits d
  · intro p q hq
    dsimp only at hq ⊢
    rw [hlost q, i.held p q hq]
  · intro p q hq
    dsimp only at hq ⊢
    have e : p ≠ c := fun e => by subst e; rw [hc] at hq; cases hq
    rw [upd_diff _ _ e]
    obtain ⟨h1, h2⟩ := i.on p q hq
    refine ⟨h1, ?_⟩
    rw [upd_diff _ _ (fun eq => e (by subst eq; exact (i.par p q h1).1.symm.trans p1))]
    exact h2
  · intro q a hq
    dsimp only
    have e : q ≠ r := fun e => by subst e; rw [upd_same] at hq; cases hq
    rw [upd_diff _ _ e] at hq
    exact i.awd q a hq

theorem dropPh_lost {q : Ph} (h1 : ∀ a, q ≠ .awaited a) (h2 : q ≠ .unborn) : (dropPh q).lost = true := by
  revert h1 h2; cases q <;> simp [dropPh, Ph.lost]

theorem dropPh_fits {q : Ph} {p : Pos} (h : q.fits p) : (dropPh q).fits p := by
  revert h
  cases q with
  | over o => intro h; exact ⟨o, h⟩
  | taken o => intro h; exact ⟨o, h⟩
  | _ => exact fun h => h

theorem dropPh_awaited {q : Ph} {a : Nat} (h : dropPh q = .awaited a) : q = .awaited a := by
  revert h; cases q <;> simp [dropPh]

/-- The promises coroutine `c` holds can be destroyed when it ends. -/
theorem kids_ok (i : TI asked s ph) {c : Nat} (hc : s.pos c = .idle) :
    ∀ r ∈ (s.kids c).reverse, r < s.next ∧ (∀ a, ph r ≠ .awaited a) ∧ ph r ≠ .unborn ∧ r ≠ 0 := by
  intro r hr
  have hr := List.mem_reverse.1 hr
  obtain ⟨p1, p2, p3⟩ := i.par c r hr
  refine ⟨p3, fun a h => ?_, (i.alive r).2 p3, by omega⟩
  have := i.awd r a h
  rw [p1, hc] at this; cases this

/-- Coroutine `c` ends; who awaits it goes on. -/
theorem finish (i : TI asked s ph) {c : Nat} {o : Out} (hl : c < s.next) (hc : s.pos c = .idle) {t : Prom.St} {q : Ph}
    (hps : PS t s.awaits (upd (dropped ph (s.kids c).reverse) c q)) (hf : q.fits (.ended o))
    (hlost : q.lost = (ph c).lost) (q1 : q ≠ .orphan) (q2 : ∀ a, q ≠ .awaited a) (q3 : q ≠ .unborn)
    {pos' : Nat → Pos} (hpc : pos' c = .ended o) (hpos : ∀ d, d ≠ c → pos' d = if s.pos d = .on c then .idle else s.pos d)
    {h' : Nat → List Res} (hh : ∀ d, s.next ≤ d → h' d = []) :
    TI asked { s.drops (s.kids c).reverse with prom := t, pos := pos', hist := h' }
      (upd (dropped ph (s.kids c).reverse) c q) := by
  obtain ⟨m, sm⟩ := i.toM.drops _ (i.kids_ok hc)
  generalize hs1 : s.drops (s.kids c).reverse = s1 at m sm
  generalize hph1 : dropped ph (s.kids c).reverse = ph1 at hps m
  have e1 : s1.pos = s.pos := by rw [sm.same]
  have e2 : s1.next = s.next := by rw [sm.same]
  have e3 : s1.par = s.par := by rw [sm.same]
  have e4 : s1.awaits = s.awaits := by rw [sm.same]
  have e5 : s1.kids = s.kids := by rw [sm.same]
  have e6 : s1.aid = s.aid := by rw [sm.same]
  have hcc : c ∉ s.kids c := fun h => by have := (i.par c c h).2.1; omega
  have hkid : ∀ r, r ∈ s.kids c → ph1 r = dropPh (ph r) := fun r hr => by
    rw [← hph1]; simp [dropped, hr]
  have hoth : ∀ r, r ∉ s.kids c → ph1 r = ph r := fun r hr => by
    rw [← hph1]; simp [dropped, hr]
  have hl1 : ∀ d, (upd ph1 c q d).lost = (ph1 d).lost := by
    intro d
    by_cases e : d = c
    · subst e; rw [upd_same, hoth _ hcc]; exact hlost
    · rw [upd_diff _ _ e]
  have hpo : ∀ d r, pos' d = .on r → s.pos d = .on r ∧ r ≠ c ∧ d ≠ c := by
    intro d r h
    have hd : d ≠ c := fun e => by subst e; rw [hpc] at h; cases h
    rw [hpos d hd] at h
    split at h
    · cases h
    · rename_i hn
      exact ⟨h, fun e => hn (by rw [h, e]), hd⟩
  have hpe : ∀ d o', d ≠ c → (pos' d = .ended o' ↔ s.pos d = .ended o') := by
    intro d o' hd
    rw [hpos d hd]
    split
    · rename_i hn; rw [hn]; simp
    · exact Iff.rfl
  refine { ps := ?_, fwd := ?_, cl := ?_, orphan := ?_, why := ?_, toldc := m.toldc, pos0 := ?_, alive := ?_, root := ?_
           new := ?_, fits := ?_, par := ?_, own := ?_, held := ?_, on := ?_, awd := ?_, stop := ?_ }
  · dsimp only; rw [e4]; exact hps
  · intro p r hp
    dsimp only at hp ⊢
    rw [e2, e3]; exact i.fwd p r (hpo p r hp).1
  · intro d hd
    dsimp only at hd ⊢
    have h := m.cl d hd
    rw [e1] at h
    refine ⟨fun x hx => h.1 x ?_, fun r hr => h.2 r (hpo d r hr).1⟩
    have hdc : d ≠ c := fun e => by subst e; rw [hpc] at hx; cases hx
    rw [hpos d hdc] at hx
    split at hx
    · cases hx
    · exact hx
  · intro d hd
    by_cases e : d = c
    · subst e; rw [upd_same] at hd; exact absurd hd q1
    · rw [upd_diff _ _ e] at hd; exact m.orphan d hd
  · intro d hd
    rw [hl1]; exact m.why d hd
  · dsimp only; rw [e2]; exact i.pos0
  · intro d
    dsimp only; rw [e2]
    by_cases e : d = c
    · subst e; rw [upd_same]; exact ⟨fun _ => hl, fun _ => q3⟩
    · rw [upd_diff _ _ e, ← i.alive d]
      by_cases hk : d ∈ s.kids c
      · rw [hkid d hk]; cases ph d <;> simp [dropPh]
      · rw [hoth d hk]
  · intro a
    by_cases e : (0 : Nat) = c
    · rw [e, upd_same]; exact q2 a
    · rw [upd_diff _ _ e, hoth 0 (fun h => by have := (i.par c 0 h).2.1; omega)]; exact i.root a
  · intro d hd
    dsimp only at hd ⊢
    rw [e2] at hd
    have hn := i.new d hd
    have hdc : d ≠ c := by omega
    refine ⟨hh d hd, ?_, by rw [e5]; exact hn.2.2.1, by rw [sm.new d hd]; exact hn.2.2.2⟩
    rw [hpos d hdc, hn.2.1]; simp
  · intro d
    dsimp only
    by_cases e : d = c
    · subst e; rw [upd_same, hpc]; exact hf
    · rw [upd_diff _ _ e]
      have h0 : (ph1 d).fits (s.pos d) := by
        by_cases hk : d ∈ s.kids c
        · rw [hkid d hk]; exact dropPh_fits (i.fits d)
        · rw [hoth d hk]; exact i.fits d
      rw [hpos d e]
      split
      · rename_i hn
        rw [hn] at h0
        revert h0
        cases ph1 d <;> simp [Ph.fits]
      · exact h0
  · intro p r hr
    dsimp only at hr ⊢
    rw [e5] at hr; rw [e2, e3]; exact i.par p r hr
  · intro r h0 hr
    dsimp only at hr ⊢
    rw [e2] at hr; rw [e3, e5]; exact i.own r h0 hr
  · intro p r hr
    dsimp only at hr ⊢
    rw [e5] at hr
    rw [hl1]
    by_cases e : p = c
    · subst e
      rw [hkid r hr, hpc]
      obtain ⟨-, k2, k3, -⟩ := i.kids_ok hc r (List.mem_reverse.2 hr)
      exact ⟨fun _ => ⟨o, rfl⟩, fun _ => dropPh_lost k2 k3⟩
    · have hk : r ∉ s.kids c := fun h => e ((i.par p r hr).1.symm.trans (i.par c r h).1)
      rw [hoth r hk, i.held p r hr]
      exact ⟨fun ⟨o', h⟩ => ⟨o', (hpe p o' e).2 h⟩, fun ⟨o', h⟩ => ⟨o', (hpe p o' e).1 h⟩⟩
  · intro p r hp
    dsimp only at hp ⊢
    obtain ⟨g1, g2, g3⟩ := hpo p r hp
    obtain ⟨h1, h2⟩ := i.on p r g1
    rw [e5, e6]
    refine ⟨h1, ?_⟩
    rw [upd_diff _ _ g2, hoth r (fun h => g3 ((i.par p r h1).1.symm.trans (i.par c r h).1))]
    exact h2
  · intro r a hr
    dsimp only
    rw [e3]
    have hrc : r ≠ c := fun e => by subst e; rw [upd_same] at hr; exact q2 a hr
    rw [upd_diff _ _ hrc] at hr
    have hr' : ph r = .awaited a := by
      by_cases hk : r ∈ s.kids c
      · rw [hkid r hk] at hr; exact dropPh_awaited hr
      · rw [hoth r hk] at hr; exact hr
    have h := i.awd r a hr'
    have hpc' : s.par r ≠ c := fun e => by rw [e, hc] at h; cases h
    rw [hpos _ hpc', h, if_neg (fun e => hrc (by cases e; rfl))]
  · intro ha
    dsimp only
    by_cases e : (0 : Nat) = c
    · right; rw [e]; exact ⟨o, hpc⟩
    · rcases i.stop ha with h | ⟨o', ho⟩
      · exact .inl (sm.mono 0 h)
      · exact .inr ⟨o', (hpe 0 o' e).2 ho⟩

end TI
end Cobalt.Tree
