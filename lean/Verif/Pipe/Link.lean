import Verif.Pipe.Inv
/-! Helper: the invariant of a chain. -/
namespace Cobalt.Pipe
open Chan (CI Set' delivered endedR endedW startsW resultOf upd)

/-- The read a coroutine waits for. -/
def rd : At → Option Nat
  | .reading i => some i
  | _ => none

/-- The write a coroutine waits for. -/
def wr : At → Option Nat
  | .writing i => some i
  | _ => none

/-- The value a coroutine holds. -/
def pend : At → List Nat
  | .has v => [v]
  | _ => []

/-- What the read has just obtained. -/
def newly (r : Option Nat) (log : List Chan.Obs) (vals : List Nat) : List Nat :=
  match r with
  | some i => (match resultOf log i with | some (.value w) => [vals.getD w 0] | _ => [])
  | none => []

/-- A channel between a writer at `p`, who has obtained `gp`, and a reader at `q` with `gq`; the coroutines have
not gone on yet. -/
structure Loose (c : Chan.St) (vals : List Nat) (p q : At) (gp gq : List Nat) : Prop where
  ci : CI c (rd q) (wr p)
  len : vals.length = c.nextW
  got : gq ++ newly (rd q) c.log vals = (delivered c.log).map fun w => vals.getD w 0
  gp : gp = vals ++ pend p
  last : ∀ j, wr p = some j → j + 1 = c.nextW
  okW : ∀ j, j < c.nextW → Chan.Obs.doneW j .ok ∈ c.log ∨ j + 1 = c.nextW
  live : p ≠ .ended → ∀ j, j < c.nextW → Chan.Obs.doneW j .ok ∈ c.log ∨ wr p = some j

/-- … and now they have. -/
structure Link (c : Chan.St) (vals : List Nat) (p q : At) (gp gq : List Nat) : Prop
    extends Loose c vals p q gp gq where
  st : Set' c (rd q) (wr p)

theorem Link.no_newly {c : Chan.St} {vals : List Nat} {p q : At} {gp gq : List Nat} (l : Link c vals p q gp gq) :
    newly (rd q) c.log vals = [] := by
  unfold Pipe.newly
  split
  · rw [Chan.resultOf_none.2 (l.st.r _ ‹_›)]
  · rfl

theorem Link.got' {c : Chan.St} {vals : List Nat} {p q : At} {gp gq : List Nat} (l : Link c vals p q gp gq) :
    gq = (delivered c.log).map fun w => vals.getD w 0 := by
  have := l.got
  rwa [l.no_newly, List.append_nil] at this

theorem Link.init (cap : Nat) : Link (Chan.St.init cap) [] .between .between [] [] := by
  refine ⟨⟨CI.init cap, rfl, rfl, rfl, ?_, ?_, ?_⟩, ⟨?_, ?_⟩⟩ <;> simp [rd, wr, Chan.St.init]

/-- The writer does something else. -/
theorem Link.writer {c : Chan.St} {vals : List Nat} {p p' q : At} {gp gp' gq : List Nat} (l : Link c vals p q gp gq)
    (h : wr p' = wr p) (hg : gp' = vals ++ pend p') (he : p' ≠ .ended → p ≠ .ended) : Link c vals p' q gp' gq :=
  ⟨⟨h ▸ l.ci, l.len, l.got, hg, h ▸ l.last, l.okW, fun k => h ▸ l.live (he k)⟩, h ▸ l.st⟩

/-- The reader does something else. -/
theorem Link.reader {c : Chan.St} {vals : List Nat} {p q q' : At} {gp gq : List Nat} (l : Link c vals p q gp gq)
    (h : rd q' = rd q) : Link c vals p q' gp gq :=
  ⟨⟨h ▸ l.ci, l.len, h ▸ l.got, l.gp, l.last, l.okW, l.live⟩, h ▸ l.st⟩

theorem dlt {s : Chan.St} {r w : Option Nat} (c : CI s r w) {x : Nat} (hx : x ∈ delivered s.log) : x < s.nextW := by
  obtain ⟨hand, -, -, h⟩ := c.j.split
  have : x ∈ s.taken := by rw [← h]; simp [hx]
  have h2 := (List.mem_filter.1 this).1
  rw [c.sw] at h2
  simpa using h2

theorem newly_map {s : Chan.St} {vals : List Nat} {r : Option Nat} :
    newly r s.log vals = (Chan.newOf r s.log).map fun w => vals.getD w 0 := by
  unfold newly Chan.newOf
  split
  · split <;> simp_all
  · simp

/-- Something happens to the channel. -/
theorem Link.outer {c : Chan.St} {vals : List Nat} {p q : At} {gp gq : List Nat} (l : Link c vals p q gp gq)
    {e : Chan.Ev} (he : outer e = true) : Loose (c.step e) vals p q gp gq := by
  obtain ⟨ci, m, hl, nR, nW⟩ := l.ci.outer l.st he
  refine ⟨ci, by rw [nW]; exact l.len, ?_, l.gp, by rw [nW]; exact l.last, ?_, ?_⟩
  · have hd := ci.new hl (fun i hi => (l.ci.allR i (nR ▸ hi)).imp (·.1) (·.2.2)) l.st.r
    rw [hd, List.map_append, ← l.got', newly_map]
  · intro j hj; rw [nW] at hj ⊢; rw [hl]
    exact (l.okW j hj).imp_left (List.mem_append_left _)
  · intro hp j hj; rw [nW] at hj; rw [hl]
    exact (l.live hp j hj).imp_left (List.mem_append_left _)

/-- The reader begins to read. -/
theorem Link.read {c : Chan.St} {vals : List Nat} {p q : At} {gp gq : List Nat} (l : Link c vals p q gp gq)
    (hq : rd q = none) (conn : Bool) :
    Loose ((c.step .mkR).step (.awaitR c.nextR conn false [])) vals p (.reading c.nextR) gp gq := by
  have cc := l.ci
  have uu := l.st
  rw [hq] at cc uu
  obtain ⟨ci, m, hl, nR, nW⟩ := cc.read uu conn
  refine ⟨ci, by rw [nW]; exact l.len, ?_, l.gp, by rw [nW]; exact l.last, ?_, ?_⟩
  · have hne : c.nextR ∉ endedR c.log := fun h => Nat.lt_irrefl _ (cc.endLt h)
    have hd := ci.new hl (fun i hi => ?_) (fun i hi => ?_)
    · rw [hd, List.map_append, ← l.got']
      show gq ++ newly (some c.nextR) _ _ = _
      rw [newly_map]
    · rw [nR] at hi
      by_cases hk : i = c.nextR
      · left; rw [hk]
      · rcases cc.allR i (by omega) with h | h
        · cases h.1
        · exact .inr h.2.2
    · cases hi; exact hne
  · intro j hj; rw [nW] at hj ⊢; rw [hl]
    exact (l.okW j hj).imp_left (List.mem_append_left _)
  · intro hp j hj; rw [nW] at hj; rw [hl]
    exact (l.live hp j hj).imp_left (List.mem_append_left _)

/-- The writer begins to write the value it holds. -/
theorem Link.write {c : Chan.St} {vals : List Nat} {q : At} {gp gq : List Nat} {v : Nat}
    (l : Link c vals (.has v) q gp gq) (conn : Bool) :
    Loose ((c.step .mkW).step (.awaitW c.nextW conn false [])) (vals ++ [v]) (.writing c.nextW) q gp gq := by
  obtain ⟨ci, m, hl, nR, nW⟩ := l.ci.write l.st conn
  refine ⟨ci, by rw [nW]; simp [l.len], ?_, ?_, ?_, ?_, ?_⟩
  · have hd := ci.new hl (fun i hi => (l.ci.allR i (nR ▸ hi)).imp (·.1) (·.2.2)) l.st.r
    rw [hd, List.map_append, newly_map]
    congr 1
    rw [l.got']
    refine List.map_congr_left fun x hx => ?_
    have := dlt l.ci hx
    rw [← l.len] at this
    rw [List.getD_eq_getElem?_getD, List.getD_eq_getElem?_getD, List.getElem?_append_left this]
  · rw [l.gp]; simp [pend]
  · intro j hj; cases hj; rw [nW]
  · intro j hj; rw [nW] at hj ⊢; rw [hl]
    by_cases hk : j = c.nextW
    · right; omega
    · rcases l.live (by simp) j (by omega) with h | h
      · exact .inl (List.mem_append_left _ h)
      · cases h
  · intro hp j hj; rw [nW] at hj; rw [hl]
    by_cases hk : j = c.nextW
    · right; subst hk; rfl
    · rcases l.live (by simp) j (by omega) with h | h
      · exact .inl (List.mem_append_left _ h)
      · cases h

theorem resultOfW_none {log : List Chan.Obs} {i : Nat} : resultOfW log i = none ↔ i ∉ endedW log := by
  rw [Chan.mem_endedW]
  simp only [resultOfW, List.findSome?_eq_none_iff]
  constructor
  · rintro h ⟨r, hr⟩
    simpa using h _ hr
  · intro h o ho
    cases o with
    | doneW j r =>
      simp only [ite_eq_right_iff]
      rintro rfl; exact absurd ⟨r, ho⟩ h
    | _ => rfl

theorem resultOfW_mem {log : List Chan.Obs} {i : Nat} {r : Chan.WRes} (h : resultOfW log i = some r) :
    Chan.Obs.doneW i r ∈ log := by
  simp only [resultOfW] at h
  obtain ⟨o, ho, h⟩ := List.exists_of_findSome?_eq_some h
  cases o with
  | doneW j x =>
    dsimp only at h
    split at h
    · cases h; subst_vars; exact ho
    · cases h
  | _ => cases h

/-- The reader has gone on. -/
theorem Loose.settledR {c : Chan.St} {vals : List Nat} {p q : At} {gp gq : List Nat} (l : Loose c vals p q gp gq)
    (h : ∀ i, rd q = some i → resultOf c.log i = none) :
    ∀ i, rd q = some i → i ∉ endedR c.log := fun i hi => Chan.resultOf_none.1 (h i hi)

/-- The reader goes on: its read is destroyed. -/
theorem Loose.dropR {c : Chan.St} {vals : List Nat} {p : At} {gp gq : List Nat} {i : Nat}
    (l : Loose c vals p (.reading i) gp gq) (h : resultOf c.log i ≠ none) (q' : At) (hq : rd q' = none) :
    Loose (c.step (.dropR i)) vals p q' gp (gq ++ newly (some i) c.log vals) := by
  have hi : i ∈ endedR c.log := by
    apply Classical.byContradiction
    intro hc; exact h (Chan.resultOf_none.2 hc)
  obtain ⟨ci, hl, nW⟩ := CI.dropR l.ci hi
  refine ⟨hq ▸ ci, by rw [nW]; exact l.len, ?_, l.gp, by rw [nW]; exact l.last, ?_, ?_⟩
  · rw [hq, hl]
    have h0 : ∀ l v, newly none l v = [] := fun _ _ => rfl
    rw [h0, List.append_nil]; exact l.got
  · rw [nW, hl]; exact l.okW
  · rw [nW, hl]; exact l.live

/-- The writer goes on. -/
theorem Loose.dropW {c : Chan.St} {vals : List Nat} {q : At} {gp gq : List Nat} {j : Nat} {r : Chan.WRes}
    (l : Loose c vals (.writing j) q gp gq) (h : resultOfW c.log j = some r) (p' : At) (hw : wr p' = none)
    (hpd : pend p' = []) (hr : r = .ok ∨ p' = .ended) (hq : ∀ i, rd q = some i → i ∉ endedR c.log) :
    Link (c.step (.dropW j)) vals p' q gp gq := by
  have hm := resultOfW_mem h
  have hi : j ∈ endedW c.log := (Chan.mem_endedW _ _).2 ⟨r, hm⟩
  obtain ⟨ci, hl, nW⟩ := CI.dropW l.ci hi
  refine ⟨⟨hw ▸ ci, by rw [nW]; exact l.len, by rw [hl]; exact l.got, ?_, ?_, ?_, ?_⟩, ⟨?_, ?_⟩⟩
  · rw [l.gp, hpd]; rfl
  · rw [hw]; intro _ h; cases h
  · rw [nW, hl]; exact l.okW
  · rw [nW, hl]
    intro hp k hk
    rcases l.live (by simp) k hk with h1 | h1
    · exact .inl h1
    · cases h1
      rcases hr with hr | hr
      · subst hr; exact .inl hm
      · exact absurd hr hp
  · rw [hl]; exact hq
  · rw [hw]; intro _ h; cases h

/-- All channels are as they should be. -/
structure PI (n : Nat) (s : St) : Prop where
  link : ∀ k, k < n → Link (s.ch k) (s.vals k) (s.pos k) (s.pos (k + 1)) (s.got k) (s.got (k + 1))
  zero : s.got 0 = List.range (s.got 0).length
  first : ∀ i, s.pos 0 ≠ .reading i
  lst : wr (s.pos n) = none ∧ pend (s.pos n) = [] ∨ n = 0

/-- All but channel `k`, to which something has just happened. -/
structure PL (n k : Nat) (s : St) : Prop where
  link : ∀ k', k' < n → k' ≠ k →
    Link (s.ch k') (s.vals k') (s.pos k') (s.pos (k' + 1)) (s.got k') (s.got (k' + 1))
  loose : Loose (s.ch k) (s.vals k) (s.pos k) (s.pos (k + 1)) (s.got k) (s.got (k + 1))
  zero : s.got 0 = List.range (s.got 0).length
  first : ∀ i, s.pos 0 ≠ .reading i
  lst : wr (s.pos n) = none ∧ pend (s.pos n) = []

theorem upd_self {α : Type} (f : Nat → α) (i : Nat) (x : α) : upd f i x i = x := by simp [upd]
theorem upd_ne {α : Type} (f : Nat → α) {i j : Nat} (x : α) (h : j ≠ i) : upd f i x j = f j := by simp [upd, h]

/-- The reader of the channel moves on. -/
theorem PL.moveR {n k : Nat} {s : St} (l : PL n k s) {c' : Chan.St} {q' : At} {g' : List Nat}
    (i : Nat) (hi : s.pos (k + 1) = .reading i)
    (hc : Loose c' (s.vals k) (s.pos k) q' (s.got k) g') (hw : wr q' = none)
    (hg : k + 1 < n → g' = s.got (k + 1) ++ pend q') (hr : ∀ i, q' ≠ .reading i) (hp : k + 1 = n → pend q' = []) :
    PL n k { s with ch := upd s.ch k c', got := upd s.got (k + 1) g', pos := upd s.pos (k + 1) q' } := by
  refine ⟨fun k' hk hne => ?_, ?_, ?_, ?_, ?_⟩
  · dsimp only
    rw [upd_ne _ _ hne, upd_ne _ _ (show k' + 1 ≠ k + 1 by omega), upd_ne _ _ (show k' + 1 ≠ k + 1 by omega)]
    by_cases he : k' = k + 1
    · subst he
      rw [upd_self, upd_self]
      have lk := l.link (k + 1) hk hne
      refine lk.writer ?_ ?_ ?_
      · rw [hw, hi]; rfl
      · have h1 := lk.gp
        rw [hg hk, h1, hi]
        simp [pend]
      · intro _; rw [hi]; simp
    · rw [upd_ne _ _ he, upd_ne _ _ he]
      exact l.link k' hk hne
  · dsimp only
    rw [upd_self, upd_self, upd_self, upd_ne _ _ (show k ≠ k + 1 by omega), upd_ne _ _ (show k ≠ k + 1 by omega)]
    exact hc
  · dsimp only; rw [upd_ne _ _ (by omega)]; exact l.zero
  · intro i; dsimp only; rw [upd_ne _ _ (by omega)]; exact l.first i
  · dsimp only
    by_cases he : n = k + 1
    · subst he; rw [upd_self]; exact ⟨hw, hp rfl⟩
    · rw [upd_ne _ _ he]; exact l.lst

theorem PL.settleR {n k : Nat} {s : St} (l : PL n k s) (hk : k < n) :
    PL n k (s.settleR n k) ∧ ∀ i, rd ((s.settleR n k).pos (k + 1)) = some i → i ∉ endedR ((s.settleR n k).ch k).log := by
  unfold St.settleR
  split
  · rename_i i hi
    have lo := l.loose
    rw [hi] at lo
    split
    · rename_i w hw
      dsimp only
      have hnew : newly (some i) (s.ch k).log (s.vals k) = [(s.vals k).getD w 0] := by simp [newly, hw]
      refine ⟨?_, ?_⟩
      · refine l.moveR i hi ?_ ?_ ?_ ?_ ?_
        · have := lo.dropR (by rw [hw]; simp) (if k + 1 < n then .has ((s.vals k).getD w 0) else .between)
            (by split <;> rfl)
          rw [hnew] at this; exact this
        · split <;> rfl
        · intro h; rw [if_pos h]; rfl
        · intro i; split <;> simp
        · intro h; rw [if_neg (by omega)]; rfl
      · intro j hj
        rw [upd_self] at hj
        split at hj <;> cases hj
    · rename_i r hw hr
      have hnew : newly (some i) (s.ch k).log (s.vals k) = [] := by
        unfold newly; dsimp only; rw [hr]
        cases r with
        | value w => exact absurd rfl (hw w)
        | _ => rfl
      refine ⟨?_, ?_⟩
      · have h1 : s.got = upd s.got (k + 1) (s.got (k + 1)) := by
          funext x; rw [Chan.upd_apply]; split
          · subst_vars; rfl
          · rfl
        have h2 := l.moveR i hi (c' := (s.ch k).step (.dropR i)) (q' := .ended) (g' := s.got (k + 1)) (by
          have := lo.dropR (by rw [hr]; simp) .ended rfl
          rw [hnew, List.append_nil] at this; exact this) rfl (fun _ => by simp [pend]) (by simp) (fun _ => rfl)
        rw [← h1] at h2
        exact h2
      · intro j hj
        dsimp only at hj
        rw [upd_self] at hj; cases hj
    · rename_i hw
      refine ⟨l, ?_⟩
      intro j hj
      rw [hi] at hj; cases hj
      exact Chan.resultOf_none.1 hw
  · rename_i hne
    refine ⟨l, ?_⟩
    intro j hj
    cases hp : s.pos (k + 1) with
    | reading i => exact absurd hp (hne i)
    | _ => rw [hp] at hj; cases hj

theorem PL.settleW {n k : Nat} {s : St} (l : PL n k s) (hk : k < n)
    (hq : ∀ i, rd (s.pos (k + 1)) = some i → i ∉ endedR (s.ch k).log) : PI n (s.settleW k) := by
  have key : ∀ (j : Nat) (r : Chan.WRes) (p' : At), s.pos k = .writing j → resultOfW (s.ch k).log j = some r →
      wr p' = none → rd p' = none → pend p' = [] → (r = .ok ∨ p' = .ended) → (∀ i, p' ≠ .reading i) →
      PI n { s with ch := upd s.ch k ((s.ch k).step (.dropW j)), pos := upd s.pos k p' } := by
    intro j r p' hj hr h1 h2 h3 h4 h5
    have lo := l.loose
    rw [hj] at lo
    refine ⟨fun k' hk' => ?_, l.zero, ?_, .inl ?_⟩
    · dsimp only
      by_cases he : k' = k
      · subst he
        rw [upd_self, upd_self, upd_ne _ _ (show k' + 1 ≠ k' by omega)]
        exact lo.dropW hr p' h1 h3 h4 hq
      · rw [upd_ne _ _ he, upd_ne _ _ he]
        by_cases he2 : k' + 1 = k
        · subst he2
          rw [upd_self]
          exact (l.link k' hk' he).reader (by rw [h2, hj]; rfl)
        · rw [upd_ne _ _ he2]
          exact l.link k' hk' he
    · intro i; dsimp only; rw [Chan.upd_apply]; split
      · exact h5 i
      · exact l.first i
    · dsimp only; rw [upd_ne _ _ (by omega)]; exact l.lst
  have stay : (∀ j, wr (s.pos k) = some j → j ∉ endedW (s.ch k).log) → PI n s := by
    intro h
    refine ⟨fun k' hk' => ?_, l.zero, l.first, .inl l.lst⟩
    by_cases he : k' = k
    · subst he; exact ⟨l.loose, ⟨hq, h⟩⟩
    · exact l.link k' hk' he
  unfold St.settleW
  split
  · rename_i j hj
    split
    · rename_i hr
      exact key j .ok .between hj hr rfl rfl rfl (.inl rfl) (by simp)
    · rename_i r hne hr
      exact key j r .ended hj hr rfl rfl rfl (.inr rfl) (by simp)
    · rename_i hr
      refine stay fun i hi => ?_
      rw [hj] at hi; cases hi
      exact resultOfW_none.1 hr
  · rename_i hne
    refine stay fun i hi => ?_
    cases hp : s.pos k with
    | writing i => exact absurd hp (hne i)
    | _ => rw [hp] at hi; cases hi

theorem PL.settle {n k : Nat} {s : St} (l : PL n k s) (hk : k < n) : PI n ((s.settleR n k).settleW k) := by
  obtain ⟨h1, h2⟩ := l.settleR hk
  exact h1.settleW hk h2

theorem PI.chan {n : Nat} {s : St} (h : PI n s) {k : Nat} (hk : k < n) {e : Chan.Ev} (he : outer e = true) :
    PI n (s.on n k e) := by
  refine PL.settle ⟨fun k' hk' hne => ?_, ?_, h.zero, h.first, h.lst.resolve_right (by omega)⟩ hk
  · dsimp only; rw [upd_ne _ _ hne]; exact h.link k' hk'
  · dsimp only; rw [upd_self]; exact (h.link k hk).outer he

theorem PI.go {n : Nat} {s : St} (h : PI n s) {k : Nat} (hk : k ≤ n) (h0 : k = n → k ≠ 0) (conn : Bool) :
    PI n (s.go n k conn) := by
  unfold St.go
  split
  · rename_i hp
    split
    · rename_i hz
      subst hz
      refine ⟨fun k' hk' => ?_, ?_, ?_, ?_⟩
      · dsimp only
        rw [upd_ne _ _ (show k' + 1 ≠ 0 by omega), upd_ne _ _ (show k' + 1 ≠ 0 by omega)]
        by_cases he : k' = 0
        · subst he
          rw [upd_self, upd_self]
          have lk := h.link 0 hk'
          refine lk.writer ?_ ?_ ?_
          · rw [hp]; rfl
          · rw [lk.gp, hp]; simp [pend]
          · intro _; rw [hp]; simp
        · rw [upd_ne _ _ he, upd_ne _ _ he]; exact h.link k' hk'
      · dsimp only; rw [upd_self, List.length_append, List.length_singleton, List.range_succ, ← h.zero]
      · intro i; dsimp only; rw [upd_self]; simp
      · dsimp only
        have : n ≠ 0 := fun h => h0 h.symm rfl
        rw [upd_ne _ _ this]; exact h.lst
    · rename_i hz
      obtain ⟨k, rfl⟩ : ∃ k', k = k' + 1 := ⟨k - 1, by omega⟩
      simp only [Nat.add_sub_cancel]
      refine PL.settle ⟨fun k' hk' hne => ?_, ?_, h.zero, ?_, ?_⟩ (by omega)
      · dsimp only
        rw [upd_ne _ _ hne, upd_ne _ _ hne, upd_ne _ _ (show k' + 1 ≠ k + 1 by omega)]
        by_cases he : k' = k + 1
        · subst he
          rw [upd_self]
          have lk := h.link (k + 1) hk'
          refine lk.writer ?_ ?_ ?_
          · rw [hp]; rfl
          · rw [lk.gp, hp]; rfl
          · intro _; rw [hp]; simp
        · rw [upd_ne _ _ he]; exact h.link k' hk'
      · dsimp only
        rw [upd_self, upd_self, upd_self, upd_ne _ _ (show k ≠ k + 1 by omega)]
        exact (h.link k (by omega)).read (by rw [hp]; rfl) conn
      · intro i; dsimp only; rw [upd_ne _ _ (by omega)]; exact h.first i
      · dsimp only
        by_cases he : n = k + 1
        · subst he; rw [upd_self]; exact ⟨rfl, rfl⟩
        · rw [upd_ne _ _ he]; exact h.lst.resolve_right (by omega)
  · rename_i v hp
    have hkn : k < n := by
      rcases Nat.lt_or_ge k n with h1 | h1
      · exact h1
      · have : k = n := by omega
        subst this
        rcases h.lst with h2 | h2
        · rw [hp] at h2; cases h2.2
        · exact absurd h2 (h0 rfl)
    dsimp only
    refine PL.settle ⟨fun k' hk' hne => ?_, ?_, h.zero, ?_, ?_⟩ hkn
    · dsimp only
      rw [upd_ne _ _ hne, upd_ne _ _ hne, upd_ne _ _ hne, upd_ne _ _ hne]
      by_cases he2 : k' + 1 = k
      · subst he2
        rw [upd_self]
        exact (h.link k' hk').reader (by rw [hp]; rfl)
      · rw [upd_ne _ _ he2]; exact h.link k' hk'
    · dsimp only
      rw [upd_self, upd_self, upd_self, upd_self, upd_ne _ _ (show k + 1 ≠ k by omega)]
      have lk := h.link k hkn
      rw [hp] at lk
      exact lk.write conn
    · intro i; dsimp only; rw [Chan.upd_apply]; split
      · simp
      · exact h.first i
    · dsimp only; rw [upd_ne _ _ (by omega)]; exact h.lst.resolve_right (by omega)
  · exact h

theorem PI.step {n : Nat} {s : St} (h : PI n s) (e : Ev) : PI n (s.step n e) := by
  cases e with
  | go k conn =>
    simp only [St.step]
    split
    · rename_i hk; exact h.go hk.1 hk.2 conn
    · exact h
  | chan k e =>
    simp only [St.step]
    split
    · rename_i hk; exact h.chan hk.1 hk.2
    · exact h

theorem PI.init (n : Nat) (cap : Nat → Nat) : PI n (St.init cap) :=
  ⟨fun k _ => Link.init (cap k), rfl, by simp [St.init], .inl ⟨rfl, rfl⟩⟩

theorem PI.run (n : Nat) (cap : Nat → Nat) (es : List Ev) : PI n (run n cap es) := by
  have : ∀ (es : List Ev) (s : St), PI n s → PI n (es.foldl (St.step n) s) := by
    intro es
    induction es with
    | nil => intro s h; exact h
    | cons e es ih => intro s h; exact ih _ (h.step e)
  exact this es _ (PI.init n cap)

end Cobalt.Pipe
