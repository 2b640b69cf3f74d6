import Verif.Tree.Run
/-! Helper: a tree of coroutines that was told to stop comes to an end. -/
namespace Cobalt.Tree
open Prom (Out upd)

def sumTo (f : Nat → Nat) : Nat → Nat
  | 0 => 0
  | n + 1 => sumTo f n + f n

theorem sumTo_congr {f g : Nat → Nat} {n : Nat} (h : ∀ d, d < n → f d = g d) : sumTo f n = sumTo g n := by
  induction n with
  | zero => rfl
  | succ n ih => simp only [sumTo, ih fun d hd => h d (by omega), h n (by omega)]

theorem sumTo_one {f g : Nat → Nat} {n c : Nat} (hc : c < n) (h : ∀ d, d < n → d ≠ c → g d = f d) :
    sumTo g n + f c = sumTo f n + g c := by
  induction n with
  | zero => omega
  | succ n ih =>
    simp only [sumTo]
    by_cases e : c = n
    · subst e
      rw [sumTo_congr fun d hd => h d (by omega) (by omega)]; omega
    · have := ih (by omega) fun d hd hne => h d (by omega) hne
      rw [h n (by omega) (Ne.symm e)]; omega

/-- How many steps a coroutine and those it starts need to end. -/
inductive Sz (N : Prog) : Nat → List Res → Nat → Prop
  | fin {a h} (o : Out) : N.act a h = .fin o → Sz N a h 1
  | op {a h n} (x : Nat) : N.act a h = .op x → Sz N a (h ++ [.cancelled]) n → Sz N a h (n + 1)
  | await {a h n} (k : Nat) : N.act a h = .await k → Sz N a (h ++ [.cancelled]) n → Sz N a h (n + 1)
  | start {a h m n} (b : Nat) : N.act a h = .start b → Sz N b [] m → Sz N a (h ++ [.started]) n → Sz N a h (m + n + 1)

variable {N : Prog}

theorem Quits.sz {a : Nat} {h : List Res} (q : Quits N a h) : ∃ n, Sz N a h n := by
  induction q with
  | fin o e => exact ⟨_, .fin o e⟩
  | op x e _ ih => obtain ⟨n, ih⟩ := ih; exact ⟨_, .op x e ih⟩
  | await x e _ ih => obtain ⟨n, ih⟩ := ih; exact ⟨_, .await x e ih⟩
  | start b e _ _ ih1 ih2 => obtain ⟨m, ih1⟩ := ih1; obtain ⟨n, ih2⟩ := ih2; exact ⟨_, .start b e ih1 ih2⟩

theorem Sz.pos {a n : Nat} {h : List Res} (q : Sz N a h n) : 0 < n := by cases q <;> omega

theorem Sz.det {a n n' : Nat} {h : List Res} (q : Sz N a h n) (q' : Sz N a h n') : n = n' := by
  induction q generalizing n' with
  | fin o e => cases q' <;> simp_all
  | op x e _ ih =>
    cases q' with
    | op x' e' q => rw [ih q]
    | fin o e' => rw [e] at e'; cases e'
    | await k e' q => rw [e] at e'; cases e'
    | start b e' q q2 => rw [e] at e'; cases e'
  | await x e _ ih =>
    cases q' with
    | await x' e' q => rw [ih q]
    | fin o e' => rw [e] at e'; cases e'
    | op k e' q => rw [e] at e'; cases e'
    | start b e' q q2 => rw [e] at e'; cases e'
  | start b e _ _ ih1 ih2 =>
    cases q' with
    | start b' e' q q2 =>
      rw [e] at e'; cases e'
      rw [ih1 q, ih2 q2]
    | fin o e' => rw [e] at e'; cases e'
    | op k e' q => rw [e] at e'; cases e'
    | await k e' q => rw [e] at e'; cases e'

open Classical in
noncomputable def wt (N : Prog) (a : Nat) (h : List Res) : Nat := if q : ∃ n, Sz N a h n then q.choose else 0

theorem wt_eq {a n : Nat} {h : List Res} (q : Sz N a h n) : wt N a h = n := by
  have hq : ∃ n, Sz N a h n := ⟨n, q⟩
  rw [wt, dif_pos hq]
  exact hq.choose_spec.det q

theorem wt_pos {a : Nat} {h : List Res} (q : Quits N a h) : 0 < wt N a h := by
  obtain ⟨n, q⟩ := q.sz
  rw [wt_eq q]; exact q.pos

/-- What the next action of a cancelled coroutine does to the number of steps. -/
theorem wt_next {a : Nat} {h : List Res} (q : Quits N a h) :
    match N.act a h with
    | .fin _ => True
    | .op _ | .await _ => Quits N a (h ++ [.cancelled]) ∧ wt N a h = wt N a (h ++ [.cancelled]) + 1
    | .start b => Quits N b [] ∧ Quits N a (h ++ [.started]) ∧ wt N a h = wt N b [] + wt N a (h ++ [.started]) + 1 := by
  cases q with
  | fin o e => simp only [e]
  | op x e q =>
    simp only [e]
    obtain ⟨n, z⟩ := q.sz
    exact ⟨q, by rw [wt_eq (.op x e z), wt_eq z]⟩
  | await x e q =>
    simp only [e]
    obtain ⟨n, z⟩ := q.sz
    exact ⟨q, by rw [wt_eq (.await x e z), wt_eq z]⟩
  | start b e q1 q2 =>
    simp only [e]
    obtain ⟨m, z1⟩ := q1.sz
    obtain ⟨n, z2⟩ := q2.sz
    exact ⟨q1, q2, by rw [wt_eq (.start b e z1 z2), wt_eq z1, wt_eq z2]⟩

def blk : Pos → Nat
  | .onOp _ | .on _ => 1
  | _ => 0

noncomputable def wgt (N : Prog) (s : St) (c : Nat) : Nat :=
  match s.pos c with
  | .idle => wt N (s.arg c) (s.hist c)
  | _ => 0

/-- How many coroutines wait, and how many steps the others have still to make. -/
def blkd (s : St) : Nat := sumTo (fun c => blk (s.pos c)) s.next
noncomputable def todo (N : Prog) (s : St) : Nat := sumTo (wgt N s) s.next

variable {asked : Prop} {s : St} {ph : Nat → Ph}

/-- The measure goes down. -/
def Less (N : Prog) (s' s : St) : Prop := blkd s' < blkd s ∨ blkd s' = blkd s ∧ todo N s' < todo N s

theorem wgt_idle {c : Nat} (h : s.pos c = .idle) : wgt N s c = wt N (s.arg c) (s.hist c) := by simp only [wgt, h]

/-- Ready of all but the coroutines `P`, and those too. -/
theorem ready_upd {s' : St} (r : s.ready N) (P : Nat → Prop)
    (h0 : ∀ d, ¬ P d → d < s'.next → d < s.next ∧ s'.pos d = s.pos d ∧ s'.hist d = s.hist d ∧ s'.arg d = s.arg d)
    (h1 : ∀ d, P d → (s'.pos d = .idle ∧ Quits N (s'.arg d) (s'.hist d)) ∨ ∃ o, s'.pos d = .ended o) : s'.ready N := by
  intro d hd
  by_cases e : P d
  · rcases h1 d e with ⟨h2, h3⟩ | ⟨o, h2⟩
    · exact ⟨fun _ => h3, fun x h => (by rw [h2] at h; cases h), fun x h => (by rw [h2] at h; cases h)⟩
    · exact absurd h2 (hd.2 o)
  · obtain ⟨h2, h3, h4, h5⟩ := h0 d e hd.1
    have := r d ⟨h2, fun o h => hd.2 o (by rw [h3]; exact h)⟩
    rw [h3, h4, h5]; exact this

theorem wind_fin (i : TI asked s ph) (r : s.ready N) {c : Nat} {o : Out} (hl : c < s.next) (hc : s.pos c = .idle) :
    (s.act c (.fin o)).ready N ∧ Less N (s.act c (.fin o)) s := by
  have sm := drops_pos i hc
  have e1 : (s.drops (s.kids c).reverse).next = s.next := by rw [sm.same]
  have e2 : (s.drops (s.kids c).reverse).hist = s.hist := by rw [sm.same]
  have e3 : (s.drops (s.kids c).reverse).arg = s.arg := by rw [sm.same]
  have hq := (r c ⟨hl, fun o h => by rw [hc] at h; cases h⟩).1 hc
  have hshape : ∃ s' : St, s.act c (.fin o) = s' ∧ s'.next = s.next ∧ s'.arg = s.arg ∧
      ((s'.pos = upd s.pos c (.ended o) ∧ s'.hist = s.hist) ∨
        ∃ p g, p ≠ c ∧ p < s.next ∧ s.pos p = .on c ∧ s'.pos = upd (upd s.pos c (.ended o)) p .idle ∧
          s'.hist = upd s.hist p (s.hist p ++ [g])) := by
    simp only [St.act]
    generalize hp : s.par c = p
    simp only [St.settle]
    split
    · rename_i hon
      have hpc : p ≠ c := fun e => by subst e; rw [upd_same] at hon; cases hon
      rw [upd_diff _ _ hpc] at hon
      have hpl : p < s.next := Nat.lt_trans (i.fwd p c hon).1 hl
      split
      · rename_i g _
        refine ⟨_, rfl, e1, e3, .inr ⟨p, ofGot g, hpc, hpl, hon, rfl, ?_⟩⟩
        simp only [St.result, e2]
      · exact ⟨_, rfl, e1, e3, .inl ⟨rfl, e2⟩⟩
    · exact ⟨_, rfl, e1, e3, .inl ⟨rfl, e2⟩⟩
  obtain ⟨s', he, h1, h2, h3⟩ := hshape
  rw [he]
  rcases h3 with ⟨h3, h4⟩ | ⟨p, g, hpc, hpl, hon, h3, h4⟩
  · refine ⟨ready_upd r (· = c) (fun d hd hlt => ?_) (fun d hd => ?_), .inr ⟨?_, ?_⟩⟩
    · rw [h1] at hlt; rw [h3, h4, h2, upd_diff _ _ hd]; exact ⟨hlt, rfl, rfl, rfl⟩
    · subst hd; right; rw [h3, upd_same]; exact ⟨_, rfl⟩
    · simp only [blkd, h1]
      apply sumTo_congr
      intro d _
      rw [h3]
      by_cases e : d = c
      · subst e; rw [upd_same, hc]; rfl
      · rw [upd_diff _ _ e]
    · simp only [todo, h1]
      have := sumTo_one (f := wgt N s) (g := wgt N s') hl (fun d _ e => by simp only [wgt, h3, h4, h2, upd_diff _ _ e])
      rw [wgt_idle hc] at this
      have h5 : wgt N s' c = 0 := by simp only [wgt, h3, upd_same]
      have := wt_pos hq
      omega
  · refine ⟨ready_upd r (fun d => d = c ∨ d = p) (fun d hd hlt => ?_) (fun d hd => ?_), .inl ?_⟩
    · have hd1 : d ≠ c := fun e => hd (.inl e)
      have hd2 : d ≠ p := fun e => hd (.inr e)
      rw [h1] at hlt; rw [h3, h4, h2, upd_diff _ _ hd2, upd_diff _ _ hd1, upd_diff _ _ hd2]; exact ⟨hlt, rfl, rfl, rfl⟩
    · rcases hd with hd | hd
      · subst hd; right; rw [h3, upd_diff _ _ (Ne.symm hpc), upd_same]; exact ⟨_, rfl⟩
      · subst hd; left
        rw [h3, h4, h2, upd_same, upd_same]
        exact ⟨rfl, (r d ⟨hpl, fun o h => by rw [hon] at h; cases h⟩).2.2 c hon g⟩
    · simp only [blkd, h1]
      have := sumTo_one (f := fun c => blk (s.pos c)) (g := fun c => blk (s'.pos c)) hpl (fun d _ e => by
        show blk (s'.pos d) = blk (s.pos d)
        rw [h3, upd_diff _ _ e]
        by_cases e' : d = c
        · subst e'; rw [upd_same, hc]; rfl
        · rw [upd_diff _ _ e'])
      have h5 : blk (s.pos p) = 1 := by rw [hon]; rfl
      have h6 : blk (s'.pos p) = 0 := by rw [h3, upd_same]; rfl
      simp only [h5, h6] at this
      omega

theorem wind_result (r : s.ready N) {c : Nat} (hl : c < s.next) (hc : s.pos c = .idle)
    (hq : Quits N (s.arg c) (s.hist c ++ [.cancelled]))
    (hw : wt N (s.arg c) (s.hist c) = wt N (s.arg c) (s.hist c ++ [.cancelled]) + 1) :
    (s.result c .cancelled).ready N ∧ Less N (s.result c .cancelled) s := by
  have hp : upd s.pos c .idle = s.pos := (upd_id _ _ _ hc).symm
  refine ⟨ready_upd r (· = c) (fun d hd hlt => ?_) (fun d hd => ?_), .inr ⟨?_, ?_⟩⟩
  · simp only [St.result, upd_diff _ _ hd]; exact ⟨hlt, trivial, trivial, trivial⟩
  · subst hd; left; simp only [St.result, upd_same]; exact ⟨trivial, hq⟩
  · simp only [blkd, St.result, hp]
  · simp only [todo]
    have := sumTo_one (f := wgt N s) (g := wgt N (s.result c .cancelled)) hl
      (fun d _ e => by simp only [wgt, St.result, upd_diff _ _ e])
    rw [wgt_idle hc, wgt_idle (s := s.result c .cancelled) (by simp only [St.result, upd_same])] at this
    simp only [St.result, upd_same] at this ⊢
    omega

theorem wind_start (i : TI asked s ph) (r : s.ready N) {c b : Nat} (hl : c < s.next) (hc : s.pos c = .idle)
    (hb : Quits N b []) (hq : Quits N (s.arg c) (s.hist c ++ [.started]))
    (hw : wt N (s.arg c) (s.hist c) = wt N b [] + wt N (s.arg c) (s.hist c ++ [.started]) + 1) :
    (s.act c (.start b)).ready N ∧ Less N (s.act c (.start b)) s := by
  obtain ⟨n1, n2, -⟩ := i.new s.next (Nat.le_refl _)
  have hcn : c ≠ s.next := by omega
  have hnc : s.next ≠ c := by omega
  refine ⟨ready_upd r (fun d => d = c ∨ d = s.next) (fun d hd hlt => ?_) (fun d hd => ?_), .inr ⟨?_, ?_⟩⟩
  · have hd1 : d ≠ c := fun e => hd (.inl e)
    have hd2 : d ≠ s.next := fun e => hd (.inr e)
    have hlt' : d < s.next + 1 := hlt
    simp only [St.act, upd_diff _ _ hd1, upd_diff _ _ hd2]
    exact ⟨by omega, trivial, trivial, trivial⟩
  · left
    rcases hd with hd | hd
    · subst hd; simp only [St.act, upd_same, upd_diff _ _ hcn]; exact ⟨hc, hq⟩
    · subst hd; simp only [St.act, upd_same, upd_diff _ _ hnc, n1]; exact ⟨n2, hb⟩
  · simp only [blkd, St.act, sumTo, n2]; rfl
  · simp only [todo]
    have := sumTo_one (f := wgt N s) (g := wgt N (s.act c (.start b))) hl
      (fun d hd e => by simp only [wgt, St.act, upd_diff _ _ e, upd_diff _ _ (Nat.ne_of_lt hd)])
    rw [wgt_idle hc, wgt_idle (s := s.act c (.start b)) (c := c) (by simp only [St.act]; exact hc)] at this
    have h5 : wgt N (s.act c (.start b)) s.next = wt N b [] := by
      rw [wgt_idle (by simp only [St.act]; exact n2)]
      simp only [St.act, upd_same, upd_diff _ _ hnc, n1]
    have h6 : (s.act c (.start b)).next = s.next + 1 := rfl
    rw [h6]
    simp only [sumTo, h5]
    simp only [St.act, upd_same, upd_diff _ _ hcn] at this
    simp only [St.act] at *
    omega

theorem wind_step (i : TI asked s ph) (r : s.ready N) {e : Ev} (h : s.winds e) :
    (s.step N e).ready N ∧ Less N (s.step N e) s := by
  cases e with
  | go c =>
    obtain ⟨hl, hc, hk⟩ := h
    have hq := (r c ⟨hl, fun o h => by rw [hc] at h; cases h⟩).1 hc
    have hn := wt_next hq
    simp only [St.step, hl, hc, and_self, if_true]
    cases ha : N.act (s.arg c) (s.hist c) with
    | start b => rw [ha] at hn; exact wind_start i r hl hc hn.1 hn.2.1 hn.2.2
    | op x =>
      rw [ha] at hn
      simp only [St.act, hk, if_true]
      exact wind_result r hl hc hn.1 hn.2
    | await x =>
      rw [ha] at hn
      simp only [St.act, hk, if_true]
      exact wind_result r hl hc hn.1 hn.2
    | fin o => exact wind_fin i r hl hc
  | complete c stop =>
    obtain ⟨⟨x, hx⟩, ht, rfl⟩ := h
    have hl : c < s.next := by
      apply Classical.byContradiction
      intro h
      rw [(i.new c (by omega)).2.1] at hx; cases hx
    have hq := (r c ⟨hl, fun o h => by rw [hx] at h; cases h⟩).2.1 x hx
    simp only [St.step, hx, St.completed, ht, Bool.and_self, if_true]
    refine ⟨ready_upd r (· = c) (fun d hd hlt => ?_) (fun d hd => ?_), .inl ?_⟩
    · simp only [St.result, upd_diff _ _ hd]; exact ⟨hlt, trivial, trivial, trivial⟩
    · subst hd; left; simp only [St.result, upd_same]; exact ⟨trivial, hq⟩
    · simp only [blkd, St.result]
      have := sumTo_one (f := fun c => blk (s.pos c)) (g := fun d => blk (upd s.pos c .idle d)) hl
        (fun d _ e => by simp only [upd_diff _ _ e])
      simp only [upd_same, hx] at this
      simp only [blk] at this ⊢
      omega
  | cancel => exact h.elim
  | drop => exact h.elim

/-- From a cancelled coroutine that has not ended one comes to something that can go on. -/
theorem wind_chase (i : TI asked s ph) : ∀ n c, s.next - c ≤ n → s.live c → s.cancelled c = true → ∃ e, s.winds e := by
  intro n
  induction n with
  | zero => intro c h hl _; have := hl.1; omega
  | succ n ih =>
    intro c hn hl hk
    cases hp : s.pos c with
    | idle => exact ⟨.go c, hl.1, hp, hk⟩
    | onOp x => exact ⟨.complete c true, ⟨x, hp⟩, (i.cl c hk).1 x hp, rfl⟩
    | ended o => exact absurd hp (hl.2 o)
    | on q =>
      obtain ⟨h1, h2, -⟩ := i.fwd c q hp
      have hf := i.fits q
      rw [(i.on c q hp).2] at hf
      exact ih q (by omega) ⟨h2, hf⟩ ((i.cl c hk).2 q hp)

theorem orphan_of_lost {q : Ph} {p : Pos} (h1 : q.lost = true) (h2 : q.fits p) (h3 : ∀ o, p ≠ .ended o) : q = .orphan := by
  cases q with
  | orphan => rfl
  | gone => obtain ⟨o, h⟩ := h2; exact absurd h (h3 o)
  | stuck => obtain ⟨o, h⟩ := h2; exact absurd h (h3 _)
  | unborn => cases h1
  | runs => cases h1
  | awaited a => cases h1
  | over o => cases h1
  | taken o => cases h1

/-- As long as something lives, it can. -/
theorem wind_some (i : TI asked s ph) (ha : asked ∨ ∃ o, s.pos 0 = .ended o) {c : Nat} (hl : s.live c) :
    ∃ e, s.winds e := by
  have hroot : s.cancelled 0 = true ∨ ∃ o, s.pos 0 = .ended o := ha.elim i.stop .inr
  induction c using Nat.strongRecOn with
  | ind c ih =>
    by_cases h0 : c = 0
    · subst h0
      rcases hroot with h | ⟨o, h⟩
      · exact wind_chase i _ 0 (Nat.le_refl _) hl h
      · exact absurd h (hl.2 o)
    · have hown := i.own c (by omega) hl.1
      have hlt := (i.par _ _ hown).2.1
      by_cases hp : ∃ o, s.pos (s.par c) = .ended o
      · have hlost := (i.held _ _ hown).2 hp
        exact wind_chase i _ c (Nat.le_refl _) hl (i.orphan c (orphan_of_lost hlost (i.fits c) hl.2))
      · exact ih _ hlt ⟨Nat.lt_trans hlt hl.1, fun o h => hp ⟨o, h⟩⟩

theorem winds_ended {e : Ev} (i : TI asked s ph) (h : s.winds e) (ha : ∃ o, s.pos 0 = .ended o) :
    ∃ o, (s.step N e).pos 0 = .ended o := by
  obtain ⟨o, ha⟩ := ha
  refine ⟨o, ?_⟩
  cases e with
  | go c =>
    obtain ⟨hl, hc, hk⟩ := h
    have h0 : (0 : Nat) ≠ c := fun e => by rw [← e, ha] at hc; cases hc
    simp only [St.step, hl, hc, and_self, if_true]
    cases N.act (s.arg c) (s.hist c) with
    | start b => exact ha
    | op x => simp only [St.act, hk, if_true, St.result, upd_diff _ _ h0]; exact ha
    | await x => simp only [St.act, hk, if_true, St.result, upd_diff _ _ h0]; exact ha
    | fin o' =>
      simp only [St.act, St.settle]
      generalize s.par c = p
      split
      · rename_i hon
        have hp : (0 : Nat) ≠ p := fun e => by
          rw [← e, upd_diff _ _ h0, ha] at hon; cases hon
        split
        · simp only [St.result, upd_diff _ _ hp, upd_diff _ _ h0]; exact ha
        · simp only [upd_diff _ _ h0]; exact ha
      · simp only [upd_diff _ _ h0]; exact ha
  | complete c stop =>
    obtain ⟨⟨x, hx⟩, ht, rfl⟩ := h
    have h0 : (0 : Nat) ≠ c := fun e => by rw [← e, ha] at hx; cases hx
    simp only [St.step, hx, St.completed, St.result, upd_diff _ _ h0]; exact ha
  | cancel => exact h.elim
  | drop => exact h.elim

theorem less_wf (N : Prog) : WellFounded (Less N) := by
  have : WellFounded (Prod.Lex (· < ·) (· < ·) : Nat × Nat → Nat × Nat → Prop) :=
    (Prod.lex Nat.lt_wfRel Nat.lt_wfRel).wf
  exact Subrelation.wf (r := InvImage (Prod.Lex (· < ·) (· < ·)) fun s => (blkd s, todo N s))
    (fun {a b} h => by
      rcases h with h | ⟨h1, h2⟩
      · exact Prod.Lex.left _ _ h
      · show Prod.Lex _ _ (blkd a, _) (blkd b, _)
        rw [h1]; exact Prod.Lex.right _ h2) (InvImage.wf _ this)

theorem run_app (N : Prog) (a : Nat) (es es' : List Ev) : run N a (es ++ es') = es'.foldl (St.step N) (run N a es) := by
  simp [run, List.foldl_append]

theorem run_cons (N : Prog) (a : Nat) (es : List Ev) (e : Ev) (es' : List Ev) :
    run N a (es ++ e :: es') = run N a ((es ++ [e]) ++ es') := by
  rw [List.append_assoc]; rfl

/-- It comes to an end. -/
theorem wind_down (N : Prog) (a : Nat) : ∀ s, ∀ es, run N a es = s → s.ready N →
    (Asked es ∨ ∃ o, s.pos 0 = .ended o) →
    ∃ es', s.windsAll N es' ∧ ∀ c, c < (run N a (es ++ es')).next → ∃ o, (run N a (es ++ es')).pos c = .ended o := by
  intro s
  induction s using (less_wf N).induction with
  | _ s ih =>
    intro es he r ha
    obtain ⟨ph, i⟩ := TI.run N a es
    rw [he] at i
    by_cases h : ∃ c, s.live c
    · obtain ⟨c, hc⟩ := h
      obtain ⟨e, hw⟩ := wind_some i ha hc
      obtain ⟨h1, h2⟩ := wind_step i r hw
      obtain ⟨es', h3, h4⟩ := ih _ h2 (es ++ [e]) (by rw [run_snoc, he]) h1 (by
        rcases ha with ha | ha
        · exact .inl ((Asked.snoc es e).2 (.inl ha))
        · exact .inr (winds_ended i hw ha))
      refine ⟨e :: es', ⟨hw, h3⟩, ?_⟩
      rw [run_cons]; exact h4
    · refine ⟨[], trivial, ?_⟩
      rw [List.append_nil, he]
      intro c hc
      apply Classical.byContradiction
      intro hn
      exact h ⟨c, hc, fun o ho => hn ⟨o, ho⟩⟩

/-- It does not go on for ever. -/
theorem wind_stops (N : Prog) (a : Nat) : ∀ s, ∀ es, run N a es = s → s.ready N → ∀ f : Nat → Ev,
    ¬ ∀ n, (run N a (es ++ (List.range n).map f)).winds (f n) := by
  intro s
  induction s using (less_wf N).induction with
  | _ s ih =>
    intro es he r f hf
    obtain ⟨ph, i⟩ := TI.run N a es
    rw [he] at i
    have h0 := hf 0
    simp only [List.range_zero, List.map_nil, List.append_nil, he] at h0
    obtain ⟨h1, h2⟩ := wind_step i r h0
    refine ih _ h2 (es ++ [f 0]) (by rw [run_snoc, he]) h1 (fun n => f (n + 1)) (fun n => ?_)
    have := hf (n + 1)
    rw [List.range_succ_eq_map, List.map_cons, List.map_map, run_cons] at this
    exact this

end Cobalt.Tree
