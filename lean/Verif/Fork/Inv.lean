import Verif.Fork.Shape
/-! Helper: what holds of the coroutines, apart from the promises. -/
namespace Cobalt.Fork
open Prom (Out upd)

theorem done_snoc (f : List Res → Act) (h : List Res) (x : Res) : done f (h ++ [x]) = done f h ++ [f h] := by
  unfold done
  rw [List.length_append, List.length_singleton, List.range_succ, List.map_append]
  congr 1
  · apply List.map_congr_left
    intro i hi
    rw [List.take_append_of_le_length (Nat.le_of_lt (List.mem_range.1 hi))]
  · simp

theorem starts_append (as bs : List Act) : starts (as ++ bs) = starts as ++ starts bs := by
  simp [starts, List.filterMap_append]

/-- Only what was started has been awaited. -/
theorem Hist.await_lt {N : Prog} {a : Nat} {h : List Res} (hh : Hist N a h) {k : Nat}
    (hk : Act.await k ∈ done (N.act a) h) : k < (starts (done (N.act a) h)).length := by
  induction hh with
  | nil a => simp [done] at hk
  | @start a h b h1 ha ih =>
    rw [done_snoc, ha] at hk ⊢
    rw [starts_append, List.length_append]
    have := ih (by simpa using hk)
    omega
  | @op a h x h1 ha ih =>
    rw [done_snoc, ha] at hk ⊢
    rw [starts_append, List.length_append]
    have := ih (by simpa using hk)
    omega
  | @await a h b h' o k' h1 ha hb h2 hf ih _ =>
    rw [done_snoc, ha] at hk ⊢
    rw [starts_append, List.length_append]
    rcases List.mem_append.1 hk with hk | hk
    · have := ih hk; omega
    · simp at hk
      subst hk
      have := (List.getElem?_eq_some_iff.1 hb).1
      omega

/-- The coroutines and their stages. -/
structure G where
  arg : Nat → Nat
  hist : Nat → List Res
  pos : Nat → Pos
  kids : Nat → List Nat
  par : Nat → Nat
  next : Nat
  ph : Nat → Ph

def Ph.out : Ph → Option Out
  | .over o | .taken o | .gone o => some o
  | _ => none

def acts (N : Prog) (g : G) (p : Nat) : List Act := done (N.act (g.arg p)) (g.hist p)

/-- The stage of the `k`-th coroutine `p` has started. -/
def view (as : List Act) (q : Pos) (k r : Nat) (ph : Ph) : Prop :=
  ((∃ o, q = .ended o) → ∃ o, ph = .gone o) ∧
  ((∀ o, q ≠ .ended o) →
    (Act.await k ∈ as → ∃ o, ph = .taken o) ∧
    (Act.await k ∉ as → (q = .on r → ph = .awaited) ∧ (q ≠ .on r → ph = .runs ∨ ∃ o, ph = .over o)))

structure GI (N : Prog) (a : Nat) (g : G) : Prop where
  pos0 : 0 < g.next
  alive : ∀ c, g.ph c ≠ .unborn ↔ c < g.next
  root : g.ph 0 = .runs ∨ ∃ o, g.ph 0 = .over o
  arg0 : g.arg 0 = a
  new : ∀ c, g.next ≤ c → g.hist c = [] ∧ g.pos c = .idle ∧ g.kids c = []
  fin : ∀ c o, (g.ph c).out = some o ↔ g.pos c = .ended o
  par : ∀ p r, r ∈ g.kids p → g.par r = p ∧ p < r ∧ r < g.next
  nodup : ∀ p, (g.kids p).Nodup
  own : ∀ r, 0 < r → r < g.next → r ∈ g.kids (g.par r)
  args : ∀ p, (g.kids p).map g.arg = starts (acts N g p)
  view : ∀ p k r, (g.kids p)[k]? = some r → view (acts N g p) (g.pos p) k r (g.ph r)
  hist : ∀ c, Hist N (g.arg c) (g.hist c)
  onOp : ∀ c x, g.pos c = .onOp x → N.act (g.arg c) (g.hist c) = .op x
  on : ∀ c r, g.pos c = .on r → ∃ k, N.act (g.arg c) (g.hist c) = .await k ∧ (g.kids c)[k]? = some r
  lost : ∀ c, g.pos c ≠ .lost
  ended : ∀ c o, g.pos c = .ended o → N.act (g.arg c) (g.hist c) = .fin o

namespace GI
variable {N : Prog} {a : Nat} {g : G}

theorem kid_par (i : GI N a g) {p k r : Nat} (h : (g.kids p)[k]? = some r) : g.par r = p ∧ p < r ∧ r < g.next :=
  i.par p r (List.mem_of_getElem? h)

theorem kid_ne (i : GI N a g) {p p' k k' r r' : Nat} (h : (g.kids p)[k]? = some r) (h' : (g.kids p')[k']? = some r')
    (hne : p ≠ p' ∨ k ≠ k') : r ≠ r' := by
  intro e
  subst e
  have hp : p = p' := (i.kid_par h).1.symm.trans (i.kid_par h').1
  subst hp
  rcases hne with hne | hne
  · exact hne rfl
  · exact hne (by
      have h1 := List.getElem?_eq_some_iff.1 h
      have h2 := List.getElem?_eq_some_iff.1 h'
      obtain ⟨l1, e1⟩ := h1
      obtain ⟨l2, e2⟩ := h2
      have hpw := List.pairwise_iff_getElem.1 (i.nodup p)
      rcases Nat.lt_trichotomy k k' with h | h | h
      · exact absurd (e1.trans e2.symm) (hpw _ _ l1 l2 h)
      · exact h
      · exact absurd (e2.trans e1.symm) (hpw _ _ l2 l1 h))

/-- Something happens to coroutine `p` and one it has started, or to `p` only. -/
theorem known (i : GI N a g) (hN : N.proper) {p k : Nat} (ha : N.act (g.arg p) (g.hist p) = .await k) :
    ∃ r, (g.kids p)[k]? = some r ∧ (starts (acts N g p))[k]? = some (g.arg r) := by
  have h := hN.known _ _ _ (i.hist p) ha
  have e := i.args p
  unfold acts at e
  rw [← e, List.length_map] at h
  refine ⟨(g.kids p)[k], List.getElem?_eq_getElem h, ?_⟩
  rw [← i.args p, List.getElem?_map, List.getElem?_eq_getElem h]
  rfl

/-- `p` waits for an operation. -/
theorem op (i : GI N a g) {c x : Nat} (hl : c < g.next) (hc : g.pos c = .idle)
    (ha : N.act (g.arg c) (g.hist c) = .op x) : GI N a { g with pos := upd g.pos c (.onOp x) } := by
  refine { i with new := ?_, fin := ?_, view := ?_, onOp := ?_, on := ?_, lost := ?_, ended := ?_ }
  · intro d hd
    have : d ≠ c := fun e => by subst e; exact absurd hl (Nat.not_lt.2 hd)
    dsimp only; rw [upd_diff _ _ this]; exact i.new d hd
  · intro d o
    dsimp only
    by_cases hd : d = c
    · subst hd; rw [upd_same, i.fin, hc]; simp
    · rw [upd_diff _ _ hd]; exact i.fin d o
  · intro p k r hr
    have hv := i.view p k r hr
    dsimp only at hr ⊢
    by_cases hd : p = c
    · subst hd
      rw [upd_same]
      rw [hc] at hv
      show Fork.view (acts N g p) _ _ _ _
      unfold Fork.view at hv ⊢
      simpa using hv
    · rw [upd_diff _ _ hd]; exact hv
  · intro d y hd
    dsimp only at hd ⊢
    by_cases hdc : d = c
    · subst hdc; rw [upd_same] at hd; cases hd; exact ha
    · rw [upd_diff _ _ hdc] at hd; exact i.onOp d y hd
  · intro d y hd
    dsimp only at hd ⊢
    by_cases hdc : d = c
    · subst hdc; rw [upd_same] at hd; cases hd
    · rw [upd_diff _ _ hdc] at hd; exact i.on d y hd
  · intro d
    dsimp only
    by_cases hdc : d = c
    · subst hdc; rw [upd_same]; simp
    · rw [upd_diff _ _ hdc]; exact i.lost d
  · intro d y hd
    dsimp only at hd ⊢
    by_cases hdc : d = c
    · subst hdc; rw [upd_same] at hd; cases hd
    · rw [upd_diff _ _ hdc] at hd; exact i.ended d y hd

/-- `p` goes on after something that was neither a start nor an await. -/
theorem complete (i : GI N a g) {c x : Nat} (hl : c < g.next) (hc : g.pos c = .onOp x) :
    GI N a { g with pos := upd g.pos c .idle, hist := upd g.hist c (g.hist c ++ [.val (N.op x)]) } := by
  have ha := i.onOp c x hc
  have hacts : ∀ p, acts N { g with pos := upd g.pos c .idle, hist := upd g.hist c (g.hist c ++ [.val (N.op x)]) } p =
      acts N g p ++ (if p = c then [.op x] else []) := by
    intro p
    unfold acts
    dsimp only
    by_cases hp : p = c
    · subst hp; rw [upd_same, done_snoc, ha, if_pos rfl]
    · rw [upd_diff _ _ hp, if_neg hp, List.append_nil]
  refine { i with new := ?_, fin := ?_, args := ?_, view := ?_, hist := ?_, onOp := ?_, on := ?_, lost := ?_, ended := ?_ }
  · intro d hd
    have : d ≠ c := fun e => by subst e; exact absurd hl (Nat.not_lt.2 hd)
    dsimp only; rw [upd_diff _ _ this, upd_diff _ _ this]; exact i.new d hd
  · intro d o
    dsimp only
    by_cases hd : d = c
    · subst hd; rw [upd_same, i.fin, hc]; simp
    · rw [upd_diff _ _ hd]; exact i.fin d o
  · intro p
    rw [hacts, starts_append]
    dsimp only
    rw [i.args p]
    split <;> simp [starts]
  · intro p k r hr
    have hv := i.view p k r hr
    rw [hacts]
    dsimp only at hr ⊢
    by_cases hd : p = c
    · subst hd
      rw [upd_same, if_pos rfl]
      rw [hc] at hv
      unfold Fork.view at hv ⊢
      simpa using hv
    · rw [upd_diff _ _ hd, if_neg hd, List.append_nil]; exact hv
  · intro d
    dsimp only
    by_cases hdc : d = c
    · subst hdc; rw [upd_same]; exact .op x (i.hist d) ha
    · rw [upd_diff _ _ hdc]; exact i.hist d
  · intro d y hd
    dsimp only at hd ⊢
    by_cases hdc : d = c
    · subst hdc; rw [upd_same] at hd; cases hd
    · rw [upd_diff _ _ hdc] at hd ⊢; exact i.onOp d y hd
  · intro d y hd
    dsimp only at hd ⊢
    by_cases hdc : d = c
    · subst hdc; rw [upd_same] at hd; cases hd
    · rw [upd_diff _ _ hdc] at hd ⊢; exact i.on d y hd
  · intro d
    dsimp only
    by_cases hdc : d = c
    · subst hdc; rw [upd_same]; simp
    · rw [upd_diff _ _ hdc]; exact i.lost d
  · intro d y hd
    dsimp only at hd ⊢
    by_cases hdc : d = c
    · subst hdc; rw [upd_same] at hd; cases hd
    · rw [upd_diff _ _ hdc] at hd ⊢; exact i.ended d y hd

/-- `c` starts another coroutine. -/
theorem start (i : GI N a g) {c b : Nat} (hl : c < g.next) (hc : g.pos c = .idle)
    (ha : N.act (g.arg c) (g.hist c) = .start b) :
    GI N a { g with arg := upd g.arg g.next b, par := upd g.par g.next c, kids := upd g.kids c (g.kids c ++ [g.next])
                    hist := upd g.hist c (g.hist c ++ [.started]), next := g.next + 1, ph := upd g.ph g.next .runs } := by
  have hcn : c ≠ g.next := by omega
  have hn := i.new g.next (Nat.le_refl _)
  have hun : g.ph g.next = .unborn := Classical.byContradiction fun h => absurd ((i.alive _).1 h) (Nat.lt_irrefl _)
  have hacts : ∀ p, acts N { g with
      arg := upd g.arg g.next b, par := upd g.par g.next c, kids := upd g.kids c (g.kids c ++ [g.next])
      hist := upd g.hist c (g.hist c ++ [.started]), next := g.next + 1, ph := upd g.ph g.next .runs } p =
      if p = g.next then [] else acts N g p ++ (if p = c then [.start b] else []) := by
    intro p
    unfold acts
    dsimp only
    by_cases hp : p = c
    · subst hp; rw [upd_same, upd_diff _ _ hcn, done_snoc, ha, if_pos rfl, if_neg hcn]
    · rw [upd_diff _ _ hp, if_neg hp, List.append_nil]
      by_cases hp' : p = g.next
      · subst hp'; rw [hn.1, if_pos rfl]; rfl
      · rw [if_neg hp', upd_diff _ _ hp']
  have hold : ∀ p, p ≠ g.next → ∀ r ∈ g.kids p, r ≠ g.next := fun p _ r hr => by have := (i.par p r hr).2.2; omega
  refine ⟨Nat.succ_pos _, fun d => ?_, ?_, ?_, fun d hd => ?_, fun d o => ?_, fun p r hr => ?_, fun p => ?_, fun r h0 hr => ?_,
    fun p => ?_, fun p k r hr => ?_, fun d => ?_, fun d x hd => ?_, fun d r hd => ?_, i.lost, fun d o hd => ?_⟩
  · dsimp only
    by_cases hd : d = g.next
    · subst hd; rw [upd_same]; simp
    · rw [upd_diff _ _ hd, i.alive]; omega
  · dsimp only
    have : (0 : Nat) ≠ g.next := by have := i.pos0; omega
    rw [upd_diff _ _ this]; exact i.root
  · dsimp only
    have : (0 : Nat) ≠ g.next := by have := i.pos0; omega
    rw [upd_diff _ _ this]; exact i.arg0
  · dsimp only at hd ⊢
    have h1 : d ≠ c := by omega
    rw [upd_diff _ _ h1, upd_diff _ _ h1]; exact i.new d (by omega)
  · dsimp only
    by_cases hd : d = g.next
    · subst hd; rw [upd_same, hn.2.1]; simp [Ph.out]
    · rw [upd_diff _ _ hd]; exact i.fin d o
  · dsimp only at hr ⊢
    by_cases hp : p = c
    · subst hp
      rw [upd_same] at hr
      rcases List.mem_append.1 hr with hr | hr
      · have h1 := i.par p r hr
        have : r ≠ g.next := by omega
        rw [upd_diff _ _ this]; exact ⟨h1.1, h1.2.1, by omega⟩
      · have := List.mem_singleton.1 hr
        subst this
        rw [upd_same]; exact ⟨rfl, hl, by omega⟩
    · rw [upd_diff _ _ hp] at hr
      have h1 := i.par p r hr
      have : r ≠ g.next := by omega
      rw [upd_diff _ _ this]; exact ⟨h1.1, h1.2.1, by omega⟩
  · dsimp only
    by_cases hp : p = c
    · subst hp
      rw [upd_same, List.nodup_append]
      refine ⟨i.nodup p, by simp, fun x hx y hy => ?_⟩
      have := List.mem_singleton.1 hy
      subst this
      exact hold p hcn x hx
    · rw [upd_diff _ _ hp]; exact i.nodup p
  · dsimp only at hr ⊢
    by_cases hrn : r = g.next
    · subst hrn; rw [upd_same, upd_same]; simp
    · rw [upd_diff _ _ hrn]
      have h1 := i.own r h0 (by omega)
      by_cases hp : g.par r = c
      · rw [hp, upd_same, ← hp]; exact List.mem_append_left _ h1
      · rw [upd_diff _ _ hp]; exact h1
  · rw [hacts]
    have harg : ∀ p, (g.kids p).map (upd g.arg g.next b) = (g.kids p).map g.arg := by
      intro p
      apply List.map_congr_left
      intro r hr
      have := (i.par p r hr).2.2
      exact upd_diff _ _ (by omega)
    dsimp only
    by_cases hp : p = c
    · subst hp
      rw [upd_same, if_neg hcn, if_pos rfl, List.map_append, harg, starts_append, i.args p]
      simp [starts]
    · rw [upd_diff _ _ hp, harg, if_neg hp, List.append_nil]
      split
      · subst_vars; rw [hn.2.2]; rfl
      · exact i.args p
  · rw [hacts]
    dsimp only at hr ⊢
    by_cases hp : p = c
    · subst hp
      rw [upd_same] at hr
      rw [if_neg hcn, if_pos rfl, hc]
      rcases Nat.lt_or_ge k (g.kids p).length with hk | hk
      · rw [List.getElem?_append_left hk] at hr
        have hrn : r ≠ g.next := by have := (i.kid_par hr).2.2; omega
        rw [upd_diff _ _ hrn]
        have hv := i.view p k r hr
        rw [hc] at hv
        unfold Fork.view at hv ⊢
        simpa using hv
      · rw [List.getElem?_append_right hk] at hr
        have hk' : k = (g.kids p).length ∧ r = g.next := by
          have := List.getElem?_eq_some_iff.1 hr
          obtain ⟨h1, h2⟩ := this
          simp at h1 h2
          exact ⟨by omega, h2.symm⟩
        obtain ⟨hk1, rfl⟩ := hk'
        rw [upd_same]
        have hno : Act.await k ∉ acts N g p := by
          intro h
          have h1 := (i.hist p).await_lt h
          have h2 := congrArg List.length (i.args p)
          rw [List.length_map] at h2
          unfold acts at h2
          omega
        unfold Fork.view
        simp [hno]
    · rw [upd_diff _ _ hp] at hr
      have hrn : r ≠ g.next := by have := (i.kid_par hr).2.2; omega
      have hpn : p ≠ g.next := by have := (i.kid_par hr).2; omega
      rw [upd_diff _ _ hrn, if_neg hpn, if_neg hp, List.append_nil]
      exact i.view p k r hr
  · dsimp only
    by_cases hd : d = c
    · subst hd; rw [upd_same, upd_diff _ _ hcn]; exact .start b (i.hist d) ha
    · rw [upd_diff _ _ hd]
      by_cases hd' : d = g.next
      · subst hd'; rw [hn.1]; exact .nil _
      · rw [upd_diff _ _ hd']; exact i.hist d
  · dsimp only at hd ⊢
    have hdc : d ≠ c := fun e => by subst e; rw [hc] at hd; cases hd
    have hdn : d ≠ g.next := fun e => by subst e; rw [hn.2.1] at hd; cases hd
    rw [upd_diff _ _ hdc, upd_diff _ _ hdn]; exact i.onOp d x hd
  · dsimp only at hd ⊢
    have hdc : d ≠ c := fun e => by subst e; rw [hc] at hd; cases hd
    have hdn : d ≠ g.next := fun e => by subst e; rw [hn.2.1] at hd; cases hd
    rw [upd_diff _ _ hdc, upd_diff _ _ hdn, upd_diff _ _ hdc]; exact i.on d r hd
  · dsimp only at hd ⊢
    have hdc : d ≠ c := fun e => by subst e; rw [hc] at hd; cases hd
    have hdn : d ≠ g.next := fun e => by subst e; rw [hn.2.1] at hd; cases hd
    rw [upd_diff _ _ hdc, upd_diff _ _ hdn]; exact i.ended d o hd

/-- What `p` has started and not awaited. -/
theorem fresh (i : GI N a g) (hN : N.proper) {p k r : Nat} (hk : (g.kids p)[k]? = some r) (hp : g.pos p = .idle)
    (ha : N.act (g.arg p) (g.hist p) = .await k) : g.ph r = .runs ∨ ∃ o, g.ph r = .over o :=
  (((i.view p k r hk).2 (by rw [hp]; simp)).2 (hN.once _ _ _ (i.hist p) ha)).2 (by rw [hp]; simp)

/-- What `p` awaits. -/
theorem waited (i : GI N a g) (hN : N.proper) {p r : Nat} (hp : g.pos p = .on r) : g.ph r = .awaited ∧ g.par r = p := by
  obtain ⟨k, ha, hk⟩ := i.on p r hp
  exact ⟨(((i.view p k r hk).2 (by rw [hp]; simp)).2 (hN.once _ _ _ (i.hist p) ha)).1 hp, (i.kid_par hk).1⟩

/-- Who awaits a coroutine that is awaited. -/
theorem waiter (i : GI N a g) {r : Nat} (hr : g.ph r = .awaited) : g.pos (g.par r) = .on r := by
  have h0 : 0 < r := by
    rcases Nat.eq_zero_or_pos r with h | h
    · subst h
      rcases i.root with h | ⟨o, h⟩ <;> rw [hr] at h <;> cases h
    · exact h
  have hl : r < g.next := (i.alive r).1 (by rw [hr]; simp)
  obtain ⟨k, hk⟩ := List.getElem?_of_mem (i.own r h0 hl)
  have hv := i.view _ k r hk
  rw [hr] at hv
  by_cases he : ∃ o, g.pos (g.par r) = .ended o
  · obtain ⟨o, h⟩ := hv.1 he; cases h
  · have hv := hv.2 (fun o ho => he ⟨o, ho⟩)
    by_cases ha : Act.await k ∈ acts N g (g.par r)
    · obtain ⟨o, h⟩ := hv.1 ha; cases h
    · apply Classical.byContradiction
      intro hn
      rcases (hv.2 ha).2 hn with h | ⟨o, h⟩ <;> cases h

/-- Positions and stages change, histories do not: what is left to show. -/
theorem repos (i : GI N a g) (pos : Nat → Pos) (ph : Nat → Ph)
    (h1 : ∀ c, ph c ≠ .unborn ↔ g.ph c ≠ .unborn) (h2 : ph 0 = .runs ∨ ∃ o, ph 0 = .over o)
    (h3 : ∀ c, g.next ≤ c → pos c = .idle) (h4 : ∀ c o, (ph c).out = some o ↔ pos c = .ended o)
    (h5 : ∀ p k r, (g.kids p)[k]? = some r → Fork.view (acts N g p) (pos p) k r (ph r))
    (h6 : ∀ c, pos c = g.pos c ∨ pos c = .idle ∨ (∃ k r, pos c = .on r ∧ N.act (g.arg c) (g.hist c) = .await k ∧
      (g.kids c)[k]? = some r) ∨ ∃ o, pos c = .ended o ∧ N.act (g.arg c) (g.hist c) = .fin o) :
    GI N a { g with pos := pos, ph := ph } := by
  refine ⟨i.pos0, fun c => (h1 c).trans (i.alive c), h2, i.arg0, fun c hc => ⟨(i.new c hc).1, h3 c hc, (i.new c hc).2.2⟩, h4,
    i.par, i.nodup, i.own, i.args, h5, i.hist, fun c x hc => ?_, fun c r hc => ?_, fun c hc => ?_, fun c o hc => ?_⟩
  all_goals
    dsimp only at hc ⊢
    have h := h6 c
    rw [hc] at h
  · rcases h with h | h | ⟨k, r, h, -⟩ | ⟨o, h, -⟩
    · exact i.onOp c x h.symm
    all_goals cases h
  · rcases h with h | h | ⟨k, r', h, h7, h8⟩ | ⟨o, h, -⟩
    · exact i.on c r h.symm
    · cases h
    · cases h; exact ⟨k, h7, h8⟩
    · cases h
  · rcases h with h | h | ⟨k, r, h, -⟩ | ⟨o, h, -⟩
    · exact i.lost c h.symm
    all_goals cases h
  · rcases h with h | h | ⟨k, r, h, -⟩ | ⟨o', h, h7⟩
    · exact i.ended c o h.symm
    · cases h
    · cases h
    · cases h; exact h7

/-- `p` awaits a coroutine that runs. -/
theorem await (i : GI N a g) (hN : N.proper) {p k r : Nat} (hl : p < g.next) (hk : (g.kids p)[k]? = some r)
    (hp : g.pos p = .idle) (ha : N.act (g.arg p) (g.hist p) = .await k) (hr : g.ph r = .runs) :
    GI N a { g with pos := upd g.pos p (.on r), ph := upd g.ph r .awaited } := by
  have hkp := i.kid_par hk
  have hno := hN.once _ _ _ (i.hist p) ha
  apply i.repos
  · intro c
    by_cases hc : c = r
    · subst hc; rw [upd_same, hr]; simp
    · rw [upd_diff _ _ hc]
  · rw [upd_diff _ _ (by omega)]; exact i.root
  · intro c hc
    rw [upd_diff _ _ (by omega)]; exact (i.new c hc).2.1
  · intro c o
    have h := i.fin c o
    by_cases hc : c = r
    · subst hc
      rw [upd_same, upd_diff _ _ (by omega), ← h, hr]; simp [Ph.out]
    · rw [upd_diff _ _ hc]
      by_cases hc' : c = p
      · subst hc'; rw [upd_same, h, hp]; simp
      · rw [upd_diff _ _ hc']; exact h
  · intro p' k' r' hk'
    have hv := i.view p' k' r' hk'
    by_cases hpp : p' = p
    · subst hpp
      rw [upd_same]
      by_cases hkk : k' = k
      · subst hkk
        have : r' = r := Option.some.inj (hk'.symm.trans hk)
        subst this
        rw [upd_same]
        unfold Fork.view acts
        simp [hno]
      · have hne := i.kid_ne hk' hk (.inr hkk)
        rw [upd_diff _ _ hne]
        rw [hp] at hv
        unfold Fork.view at hv ⊢
        simpa [Ne.symm hne] using hv
    · rw [upd_diff _ _ hpp, upd_diff _ _ (i.kid_ne hk' hk (.inl hpp))]; exact hv
  · intro c
    by_cases hc : c = p
    · subst hc; rw [upd_same]; exact .inr (.inr (.inl ⟨k, r, rfl, ha, hk⟩))
    · rw [upd_diff _ _ hc]; exact .inl rfl

/-- As if `p` did not yet await. -/
theorem back (i : GI N a g) (hN : N.proper) {p r : Nat} (hp : g.pos p = .on r) :
    GI N a { g with pos := upd g.pos p .idle, ph := upd g.ph r .runs } := by
  obtain ⟨k, ha, hk⟩ := i.on p r hp
  have hkp := i.kid_par hk
  have hno := hN.once _ _ _ (i.hist p) ha
  have hr := (i.waited hN hp).1
  apply i.repos
  · intro c
    by_cases hc : c = r
    · subst hc; rw [upd_same, hr]; simp
    · rw [upd_diff _ _ hc]
  · rw [upd_diff _ _ (by omega)]; exact i.root
  · intro c hc
    by_cases hc' : c = p
    · subst hc'; rw [upd_same]
    · rw [upd_diff _ _ hc']; exact (i.new c hc).2.1
  · intro c o
    have h := i.fin c o
    by_cases hc : c = r
    · subst hc
      rw [upd_same, upd_diff _ _ (by omega), ← h, hr]; simp [Ph.out]
    · rw [upd_diff _ _ hc]
      by_cases hc' : c = p
      · subst hc'; rw [upd_same, h, hp]; simp
      · rw [upd_diff _ _ hc']; exact h
  · intro p' k' r' hk'
    have hv := i.view p' k' r' hk'
    by_cases hpp : p' = p
    · subst hpp
      rw [upd_same]
      by_cases hkk : k' = k
      · subst hkk
        have : r' = r := Option.some.inj (hk'.symm.trans hk)
        subst this
        rw [upd_same]
        unfold Fork.view acts
        simp [hno]
      · have hne := i.kid_ne hk' hk (.inr hkk)
        rw [upd_diff _ _ hne]
        rw [hp] at hv
        unfold Fork.view at hv ⊢
        simpa [Ne.symm hne] using hv
    · rw [upd_diff _ _ hpp, upd_diff _ _ (i.kid_ne hk' hk (.inl hpp))]; exact hv
  · intro c
    by_cases hc : c = p
    · subst hc; rw [upd_same]; exact .inr (.inl rfl)
    · rw [upd_diff _ _ hc]; exact .inl rfl

/-- All `c` has started have ended and been awaited when it ends. -/
theorem all_taken (i : GI N a g) (hN : N.proper) {c : Nat} {o : Out} (hc : g.pos c = .idle)
    (ha : N.act (g.arg c) (g.hist c) = .fin o) (r : Nat) (hr : r ∈ g.kids c) : ∃ o, g.ph r = .taken o := by
  obtain ⟨k, hk⟩ := List.getElem?_of_mem hr
  have hlen := (List.getElem?_eq_some_iff.1 hk).1
  have h1 := hN.all _ _ _ (i.hist c) ha k (by
    have := congrArg List.length (i.args c)
    rw [List.length_map] at this
    unfold acts at this
    omega)
  exact ((i.view c k r hk).2 (by rw [hc]; simp)).1 h1

/-- `c`, which nobody awaits, ends. -/
theorem finish (i : GI N a g) (hN : N.proper) {c : Nat} {o : Out} (hl : c < g.next) (hc : g.pos c = .idle)
    (ha : N.act (g.arg c) (g.hist c) = .fin o) (hr : g.ph c = .runs) :
    GI N a { g with pos := upd g.pos c (.ended o), ph := upd (dropped g.ph (g.kids c)) c (.over o) } := by
  have hself : c ∉ g.kids c := fun h => by have := (i.par c c h).2.1; omega
  have hall := i.all_taken hN hc ha
  have hd : ∀ d, d ∉ g.kids c → dropped g.ph (g.kids c) d = g.ph d := by intro d hd; simp [dropped, hd]
  have hd' : ∀ d, d ∈ g.kids c → ∃ o, g.ph d = .taken o ∧ dropped g.ph (g.kids c) d = .gone o := by
    intro d hd
    obtain ⟨o, ho⟩ := hall d hd
    exact ⟨o, ho, by simp [dropped, hd, ho]⟩
  apply i.repos
  · intro d
    by_cases h : d = c
    · subst h; rw [upd_same, hr]; simp
    · rw [upd_diff _ _ h]
      by_cases hk : d ∈ g.kids c
      · obtain ⟨o, h1, h2⟩ := hd' d hk
        rw [h1, h2]; simp
      · rw [hd d hk]
  · by_cases h : 0 = c
    · subst h; rw [upd_same]; exact .inr ⟨o, rfl⟩
    · rw [upd_diff _ _ h, hd 0 (fun h' => by have := (i.par c 0 h').2.1; omega)]; exact i.root
  · intro d hd
    rw [upd_diff _ _ (by omega)]; exact (i.new d hd).2.1
  · intro d o'
    by_cases h : d = c
    · subst h; rw [upd_same, upd_same]; simp [Ph.out]
    · rw [upd_diff _ _ h, upd_diff _ _ h, ← i.fin d o']
      by_cases hk : d ∈ g.kids c
      · obtain ⟨o, h1, h2⟩ := hd' d hk
        rw [h1, h2]; simp [Ph.out]
      · rw [hd d hk]
  · intro p k r hk
    have hv := i.view p k r hk
    have hkp := i.kid_par hk
    by_cases hp : p = c
    · subst hp
      obtain ⟨o', h1, h2⟩ := hd' r (List.mem_of_getElem? hk)
      rw [upd_same, upd_diff _ _ (by omega), h2]
      unfold Fork.view
      simp
    · rw [upd_diff _ _ hp]
      have hnk : r ∉ g.kids c := fun h => hp (hkp.1.symm.trans (i.par c r h).1)
      by_cases hrc : r = c
      · subst hrc
        rw [upd_same]
        rw [hr] at hv
        unfold Fork.view at hv ⊢
        refine ⟨fun h => ?_, fun h => ⟨fun h' => ?_, fun h' => ⟨fun h'' => ?_, fun h'' => .inr ⟨o, rfl⟩⟩⟩⟩
        · obtain ⟨o, h⟩ := hv.1 h; cases h
        · obtain ⟨o, h⟩ := (hv.2 h).1 h'; cases h
        · have := ((hv.2 h).2 h').1 h''; cases this
      · rw [upd_diff _ _ hrc, hd r hnk]; exact hv
  · intro d
    by_cases h : d = c
    · subst h; rw [upd_same]; exact .inr (.inr (.inr ⟨o, rfl, ha⟩))
    · rw [upd_diff _ _ h]; exact .inl rfl

/-- `p` awaits a coroutine that has ended. -/
theorem take (i : GI N a g) (hN : N.proper) {p k r : Nat} {o : Out} (hl : p < g.next) (hk : (g.kids p)[k]? = some r)
    (hp : g.pos p = .idle) (ha : N.act (g.arg p) (g.hist p) = .await k) (hr : g.ph r = .over o) :
    GI N a { g with hist := upd g.hist p (g.hist p ++ [ofOut o]), ph := upd g.ph r (.taken o) } := by
  have hkp := i.kid_par hk
  have hno := hN.once _ _ _ (i.hist p) ha
  have hend := i.ended r o ((i.fin r o).1 (by rw [hr]; rfl))
  have hacts : ∀ q, acts N { g with hist := upd g.hist p (g.hist p ++ [ofOut o]), ph := upd g.ph r (.taken o) } q =
      acts N g q ++ (if q = p then [.await k] else []) := by
    intro q
    unfold acts
    dsimp only
    by_cases hq : q = p
    · subst hq; rw [upd_same, done_snoc, ha, if_pos rfl]
    · rw [upd_diff _ _ hq, if_neg hq, List.append_nil]
  have hkn : (starts (acts N g p))[k]? = some (g.arg r) := by
    obtain ⟨r', h1, h2⟩ := i.known hN ha
    have : r' = r := Option.some.inj (h1.symm.trans hk)
    rw [← this]; exact h2
  refine { i with alive := ?_, root := ?_, new := ?_, fin := ?_, args := ?_, view := ?_, hist := ?_, onOp := ?_, on := ?_,
                  ended := ?_ }
  · intro c
    dsimp only
    rw [← i.alive c]
    by_cases hc : c = r
    · subst hc; rw [upd_same, hr]; simp
    · rw [upd_diff _ _ hc]
  · dsimp only
    rw [upd_diff _ _ (by omega)]; exact i.root
  · intro c hc
    dsimp only at hc ⊢
    rw [upd_diff _ _ (by omega)]; exact i.new c hc
  · intro c o'
    dsimp only
    rw [← i.fin c o']
    by_cases hc : c = r
    · subst hc; rw [upd_same, hr]; simp [Ph.out]
    · rw [upd_diff _ _ hc]
  · intro q
    rw [hacts, starts_append]
    dsimp only
    rw [i.args q]
    split <;> simp [starts]
  · intro p' k' r' hk'
    have hv := i.view p' k' r' hk'
    rw [hacts]
    dsimp only at hk' ⊢
    by_cases hpp : p' = p
    · subst hpp
      rw [if_pos rfl]
      by_cases hkk : k' = k
      · subst hkk
        have : r' = r := Option.some.inj (hk'.symm.trans hk)
        subst this
        rw [upd_same, hp]
        unfold Fork.view
        simp
      · have hne := i.kid_ne hk' hk (.inr hkk)
        rw [upd_diff _ _ hne]
        unfold Fork.view at hv ⊢
        simpa [hkk] using hv
    · rw [upd_diff _ _ (i.kid_ne hk' hk (.inl hpp)), if_neg hpp, List.append_nil]; exact hv
  · intro c
    dsimp only
    by_cases hc : c = p
    · subst hc; rw [upd_same]; exact .await k (i.hist c) ha hkn (i.hist r) hend
    · rw [upd_diff _ _ hc]; exact i.hist c
  · intro c x hc
    dsimp only at hc ⊢
    have : c ≠ p := fun e => by subst e; rw [hp] at hc; cases hc
    rw [upd_diff _ _ this]; exact i.onOp c x hc
  · intro c x hc
    dsimp only at hc ⊢
    have : c ≠ p := fun e => by subst e; rw [hp] at hc; cases hc
    rw [upd_diff _ _ this]; exact i.on c x hc
  · intro c x hc
    dsimp only at hc ⊢
    have : c ≠ p := fun e => by subst e; rw [hp] at hc; cases hc
    rw [upd_diff _ _ this]; exact i.ended c x hc

end GI
end Cobalt.Fork
