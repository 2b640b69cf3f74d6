import Verif.Fork.Inv
/-! Helper: the invariant holds in every run. -/
namespace Cobalt.Fork
open Prom (Out upd)

/-- The state without the promises, with the stages. -/
def St.g (s : St) (ph : Nat → Ph) : G :=
  { arg := s.arg, hist := s.hist, pos := s.pos, kids := s.kids, par := s.par, next := s.next, ph := ph }

def FI (N : Prog) (a : Nat) (s : St) : Prop := ∃ ph, GI N a (s.g ph) ∧ PS s.prom ph

theorem FI.init (N : Prog) (a : Nat) : FI N a (St.init a) := by
  refine ⟨fun c => if c = 0 then .runs else .unborn, ?_, ?_⟩
  · refine ⟨Nat.one_pos, fun c => ?_, .inl rfl, rfl, fun c _ => ⟨rfl, rfl, rfl⟩, fun c o => ?_, fun p r h => ?_, fun p => ?_,
      fun r h0 hr => ?_, fun p => rfl, fun p k r h => ?_, fun c => .nil _, fun c x h => ?_, fun c x h => ?_, fun c h => ?_,
      fun c x h => ?_⟩
    · simp only [St.g, St.init]
      by_cases hc : c = 0
      · simp [hc]
      · simp [hc]
    · simp only [St.g, St.init]
      by_cases hc : c = 0 <;> simp [hc, Ph.out]
    · simp [St.g, St.init] at h
    · simp [St.g, St.init]
    · simp only [St.g, St.init] at hr; omega
    · simp [St.g, St.init] at h
    all_goals simp [St.g, St.init] at h
  · have h0 : PS {} (fun _ => .unborn) :=
      ⟨fun _ => rfl, fun _ => rfl, fun _ => rfl, fun _ => by simp, rfl, rfl, fun _ => rfl, fun _ => rfl⟩
    have h1 := h0.create (c := 0) rfl
    have e : (fun c => if c = 0 then Ph.runs else .unborn) = upd (fun _ => Ph.unborn) 0 .runs := by
      funext c; simp
    rw [e]
    exact h1

/-- `p` awaits a coroutine that has ended, and goes on at once. -/
theorem settle_got {s : St} {p r : Nat} {w : Prom.Aw} {x : Prom.Got} (hp : s.pos p = .on r) (hw : s.prom.aw r = some w)
    (hx : w.got = some x) :
    s.settle p r = { s with hist := upd s.hist p (s.hist p ++ [ofGot x]), pos := upd s.pos p .idle } := by
  unfold St.settle
  rw [if_pos hp, hw]
  cases w
  dsimp only at hx
  subst hx
  rfl

theorem settle_wait {s : St} {p r : Nat} {w : Prom.Aw} (hw : s.prom.aw r = some w) (hx : w.got = none) :
    s.settle p r = s := by
  unfold St.settle
  split
  · rw [hw]
    cases w
    dsimp only at hx
    subst hx
    rfl
  · rfl

theorem settle_no {s : St} {p r : Nat} (hp : s.pos p ≠ .on r) : s.settle p r = s := by
  unfold St.settle
  rw [if_neg hp]

theorem FI.step {N : Prog} (hN : N.proper) {a : Nat} {s : St} (i : FI N a s) (e : Ev) : FI N a (s.step N e) := by
  obtain ⟨ph, i, t⟩ := i
  cases e with
  | complete c =>
    simp only [St.step]
    split
    · rename_i x hx
      have hl : c < s.next := by
        apply Classical.byContradiction
        intro h
        have h1 := (i.new c (Nat.le_of_not_lt h)).2.1
        have h2 : (s.g ph).pos c = .onOp x := hx
        rw [h1] at h2; cases h2
      exact ⟨ph, i.complete (c := c) (x := x) hl hx, t⟩
    · exact ⟨ph, i, t⟩
  | go c =>
    simp only [St.step]
    split
    · rename_i hc
      obtain ⟨hl, hc⟩ := hc
      cases ha : N.act (s.arg c) (s.hist c) with
      | start b =>
        refine ⟨upd ph s.next .runs, i.start (c := c) (b := b) hl hc ha, t.create ?_⟩
        exact Classical.byContradiction fun h => absurd ((i.alive s.next).1 h) (Nat.lt_irrefl _)
      | op x => exact ⟨ph, i.op (c := c) (x := x) hl hc ha, t⟩
      | await k =>
        obtain ⟨r, hk, -⟩ := i.known hN (p := c) (k := k) ha
        have hk' : (s.kids c)[k]? = some r := hk
        have hkp := i.kid_par hk
        simp only [St.act, hk']
        rcases i.fresh hN hk hc ha with hr | ⟨o, hr⟩
        · have t1 := t.await_runs hr
          have haw := t1.aw r
          rw [upd_same] at haw
          rw [settle_wait (w := { self := r }) haw rfl]
          exact ⟨_, i.await hN hl hk hc ha hr, t1⟩
        · have t1 := t.await_over hr
          have haw := t1.aw r
          rw [upd_same] at haw
          have hcr : upd s.pos c (.on r) c = .on r := upd_same _ _ _
          rw [settle_got (w := { self := r, got := some (got o) }) (x := got o) hcr haw rfl, ofGot_got]
          refine ⟨_, ?_, t1⟩
          have h1 := i.take hN hl hk hc ha hr
          have e : upd (upd s.pos c (.on r)) c .idle = s.pos := by
            rw [upd_over]; exact (upd_id _ _ _ hc).symm
          simp only [St.g] at h1 ⊢
          rw [e]
          exact h1
      | fin o =>
        simp only [St.act]
        have hall := i.all_taken hN hc ha
        have hself : c ∉ s.kids c := fun h => by have := (i.par c c h).2.1; omega
        have t1 := t.drops (s.kids c) (i.nodup c) hall
        have hdc : dropped ph (s.kids c) c = ph c := by simp [dropped, hself]
        have hne : ph c ≠ .unborn := (i.alive c).2 hl
        have hout : (ph c).out = none := by
          cases h : (ph c).out with
          | none => rfl
          | some o' =>
            have h2 := (i.fin c o').1 h
            have h3 : (s.g ph).pos c = .idle := hc
            rw [h3] at h2; cases h2
        have hrun : ph c = .runs ∨ ph c = .awaited := by
          cases h : ph c with
          | unborn => exact absurd h hne
          | runs => exact .inl rfl
          | awaited => exact .inr rfl
          | over o' => rw [h] at hout; cases hout
          | taken o' => rw [h] at hout; cases hout
          | gone o' => rw [h] at hout; cases hout
        rcases hrun with hr | hr
        · have t2 := t1.finish_runs o (hdc.trans hr)
          rw [settle_no]
          · exact ⟨_, i.finish hN hl hc ha hr, t2⟩
          · dsimp only
            intro h
            by_cases hpc : s.par c = c
            · rw [hpc, upd_same] at h; cases h
            · rw [upd_diff _ _ hpc] at h
              have := (i.waited hN (p := s.par c) (r := c) h).1
              exact absurd (hr.symm.trans this) (by simp)
        · have t2 := t1.finish_awaited o (hdc.trans hr)
          have hp : s.pos (s.par c) = .on c := i.waiter hr
          have hpc : s.par c ≠ c := fun h => by rw [h, hc] at hp; cases hp
          have haw := t2.aw c
          rw [upd_same] at haw
          have hpp : upd s.pos c (.ended o) (s.par c) = .on c := by rw [upd_diff _ _ hpc]; exact hp
          rw [settle_got (w := { self := c, got := some (got o) }) (x := got o) hpp haw rfl, ofGot_got]
          refine ⟨_, ?_, t2⟩
          -- as if it ended before it was awaited
          have i1 := i.back hN (p := s.par c) (r := c) hp
          obtain ⟨k, hak, hkk⟩ := i.on (s.par c) c hp
          have hkp := i.kid_par hkk
          have e1 : upd s.pos (s.par c) .idle c = .idle := by rw [upd_diff _ _ (Ne.symm hpc)]; exact hc
          have i2 := i1.finish hN hl e1 ha (upd_same _ _ _)
          have e2 : upd (upd s.pos (s.par c) .idle) c (.ended o) (s.par c) = .idle := by
            rw [upd_diff _ _ hpc, upd_same]
          have i3 := i2.take hN (p := s.par c) (k := k) (r := c) (o := o) (Nat.lt_trans hkp.2.1 hkp.2.2) hkk e2 hak
            (upd_same _ _ _)
          simp only [St.g] at i3 ⊢
          have e3 : upd (upd s.pos (s.par c) .idle) c (.ended o) = upd (upd s.pos c (.ended o)) (s.par c) .idle := by
            funext d
            simp only [Prom.upd_apply]
            by_cases h1 : d = c
            · subst h1; simp [Ne.symm hpc]
            · simp [h1]
          have e4 : upd (upd (dropped (upd ph c .runs) (s.kids c)) c (.over o)) c (.taken o) =
              upd (dropped ph (s.kids c)) c (.taken o) := by
            rw [upd_over]
            funext d
            simp only [Prom.upd_apply]
            split
            · rfl
            · simp [dropped, *]
          rw [e3, e4] at i3
          exact i3
    · exact ⟨ph, i, t⟩

theorem snoc_ind {α : Type} {P : List α → Prop} (h0 : P []) (h1 : ∀ l a, P l → P (l ++ [a])) (l : List α) : P l := by
  have : ∀ l : List α, P l.reverse := by
    intro l
    induction l with
    | nil => exact h0
    | cons a l ih => rw [List.reverse_cons]; exact h1 _ _ ih
  have h := this l.reverse
  rwa [List.reverse_reverse] at h

theorem run_snoc (N : Prog) (a : Nat) (es : List Ev) (e : Ev) : run N a (es ++ [e]) = (run N a es).step N e := by
  unfold run; rw [List.foldl_append]; rfl

theorem FI.run {N : Prog} (hN : N.proper) (a : Nat) (es : List Ev) : FI N a (Fork.run N a es) := by
  induction es using snoc_ind with
  | h0 => exact FI.init N a
  | h1 es e ih => rw [run_snoc]; exact ih.step hN e

end Cobalt.Fork
