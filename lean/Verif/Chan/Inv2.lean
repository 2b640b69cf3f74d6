import Verif.Chan.Inv
import Mathlib.Data.List.Nodup
/-! Helper: every step keeps the control invariant. -/
namespace Cobalt.Chan

theorem WF.logged {s : St} {cur : Option Tok} (h : WF s cur) (l : List Obs) :
    WF { s with log := l } cur := by
  cases h; constructor <;> assumption

theorem WF.grabR {s : St} (h : WF s none) {i : Nat} (hf : (s.R i).status = .fresh) :
    WF s (some (.r i)) := by
  constructor
  all_goals (cases h; grind)

theorem WF.grabW {s : St} (h : WF s none) {i : Nat} (hf : (s.W i).status = .fresh) :
    WF s (some (.w i)) := by
  constructor
  all_goals (cases h; grind)

theorem WF.queueR {s : St} (h : WF s none) {i : Nat} (conn txn : Bool)
    (hf : (s.R i).status = .fresh) (hc : (s.R i).cancelled = false) (ho : s.closed = false)
    (hq : s.wq = []) : WF (s.queueR i conn txn) none := by
  have hl := h.rlink i
  constructor
  all_goals (cases h; simp only [St.queueR]; grind)

theorem WF.queueW {s : St} (h : WF s none) {i : Nat} (conn txn : Bool)
    (hf : (s.W i).status = .fresh) (hc : (s.W i).cancelled = false) (ho : s.closed = false)
    (hk : (s.W i).closedF = false)
    (hq : s.rq = []) : WF (s.queueW i conn txn) none := by
  have hl := h.wlink i
  constructor
  all_goals (cases h; simp only [St.queueW]; grind)

theorem WF.handR {s : St} (h : WF s none) {i w : Nat} (txn : Bool) {rest : List Nat}
    (hf : (s.R i).status = .fresh) (hc : (s.R i).cancelled = false)
    (hq : s.wq = w :: rest) (hw : (s.W w).waiting = true) :
    WF ((s.takeFrom i w txn).handR i w) (some (.w w)) := by
  have hl := h.rlink i
  have hl2 := h.wlink w (by simp [hq])
  have hd := h.ndW
  constructor
  all_goals (cases h; simp only [St.takeFrom, St.handR]; grind)

theorem WF.handW {s : St} (h : WF s none) {i j : Nat} (txn : Bool) {rest : List Nat}
    (hf : (s.W i).status = .fresh) (hc : (s.W i).cancelled = false) (hk : (s.W i).closedF = false)
    (hq : s.rq = j :: rest) (hw : (s.R j).waiting = true) :
    WF ((s.giveTo i j txn).handW i j) (some (.r j)) := by
  have hl := h.wlink i
  have hl2 := h.rlink j (by simp [hq])
  have hd := h.ndR
  constructor
  all_goals (cases h; simp only [St.giveTo, St.handW]; grind)

theorem WF.cancelR {s : St} (h : WF s none) (i : Nat) : WF (s.cancelR i) none := by
  unfold St.cancelR
  split
  · have hd := h.ndR
    have := h.rslot i
    constructor
    all_goals (cases h; simp only; grind)
  · exact h

theorem WF.cancelW {s : St} (h : WF s none) (i : Nat) : WF (s.cancelW i) none := by
  unfold St.cancelW
  split
  · have hd := h.ndW
    have := h.wslot i
    constructor
    all_goals (cases h; simp only; grind)
  · exact h

theorem WF.close {s : St} (h : WF s none) : WF s.close none := by
  have hd : (s.posted ++ (s.rq.filter fun i => (s.R i).waiting).map Tok.r
      ++ (s.wq.filter fun i => (s.W i).waiting).map Tok.w).Nodup := by
    rw [List.nodup_append, List.nodup_append]
    refine ⟨⟨h.ndP, ?_, ?_⟩, ?_, ?_⟩
    · exact List.Pairwise.map _ (by intro a b hab h; exact hab (by simpa using h))
        (h.ndR.sublist List.filter_sublist)
    · intro a ha b hb e
      subst e
      simp only [List.mem_map, List.mem_filter] at hb
      obtain ⟨x, ⟨hx, _⟩, rfl⟩ := hb
      exact (h.rpost x ha).2.2.1 hx
    · exact List.Pairwise.map _ (by intro a b hab h; exact hab (by simpa using h))
        (h.ndW.sublist List.filter_sublist)
    · intro a ha b hb e
      subst e
      simp only [List.mem_map, List.mem_filter] at hb
      obtain ⟨x, ⟨hx, _⟩, rfl⟩ := hb
      simp only [List.mem_append, List.mem_map, List.mem_filter] at ha
      rcases ha with ha | ⟨y, _, hy⟩
      · exact (h.wpost x ha).2.2.1 hx
      · exact absurd hy (by simp)
  constructor
  case ndP => exact hd
  case rpost =>
    intro i hi
    simp only [St.close, List.mem_append, List.mem_map, List.mem_filter] at hi ⊢
    have := h.rpost i
    have := h.rlink i
    have := h.rwait i
    grind
  case wpost =>
    intro i hi
    simp only [St.close, List.mem_append, List.mem_map, List.mem_filter] at hi ⊢
    have := h.wpost i
    have := h.wlink i
    have := h.wwait i
    grind
  case rsusp =>
    intro i hi
    simp only [St.close, List.mem_append, List.mem_map, List.mem_filter] at hi ⊢
    have := h.rsusp i
    have := h.rlink i
    have := h.rwait i
    grind
  case wsusp =>
    intro i hi
    simp only [St.close, List.mem_append, List.mem_map, List.mem_filter] at hi ⊢
    have := h.wsusp i
    have := h.wlink i
    have := h.wwait i
    grind
  all_goals (clear hd; cases h; simp only [St.close]; grind)

theorem nodup_eraseIdx_mem {l : List Tok} (h : l.Nodup) {k : Nat} {t : Tok} (hk : l[k]? = some t)
    (x : Tok) : x ∈ l.eraseIdx k ↔ x ∈ l ∧ x ≠ t := by
  obtain ⟨hlt, rfl⟩ := List.getElem?_eq_some_iff.1 hk
  rw [List.mem_eraseIdx_iff_getElem, List.mem_iff_getElem]
  constructor
  · rintro ⟨i, hi, hne, rfl⟩
    exact ⟨⟨i, hi, rfl⟩, fun e => hne (h.getElem_inj_iff.1 e)⟩
  · rintro ⟨⟨i, hi, rfl⟩, hne⟩
    exact ⟨i, hi, fun e => hne (by subst e; rfl), rfl⟩

theorem WF.unpost {s : St} (h : WF s none) {k : Nat} {t : Tok} (hk : s.posted[k]? = some t) :
    WF { s with posted := s.posted.eraseIdx k } (some t) := by
  have hm := nodup_eraseIdx_mem h.ndP hk
  have hin : t ∈ s.posted := List.mem_of_getElem? hk
  have hnd : (s.posted.eraseIdx k).Nodup := h.ndP.sublist (List.eraseIdx_sublist ..)
  constructor
  all_goals (cases h; simp only; grind)

theorem WF.run {s : St} (h : WF s none) (k : Nat) : (s.run k).ub = true ∨ WF (s.run k) none := by
  unfold St.run
  split
  · exact Or.inr h
  · rename_i i hk
    exact (h.unpost hk).resumeR
  · rename_i i hk
    exact (h.unpost hk).resumeW

theorem WF.dropR {s : St} (h : WF s none) (i : Nat) : WF (s.dropR i) none := by
  unfold St.dropR
  split
  · have hd := h.ndR
    constructor
    all_goals (cases h; simp only; grind)
  · exact h

theorem WF.dropW {s : St} (h : WF s none) (i : Nat) : WF (s.dropW i) none := by
  unfold St.dropW
  split
  · have hd := h.ndW
    constructor
    all_goals (cases h; simp only; grind)
  · exact h

theorem WF.awaitR {s : St} (h : WF s none) (i : Nat) (conn txn : Bool) (hits : List Tok) :
    (s.awaitR i conn txn hits).ub = true ∨ WF (s.awaitR i conn txn hits) none := by
  rw [awaitR_eq]
  split
  · exact Or.inr h
  · rename_i hf
    simp only [ne_eq, Decidable.not_not] at hf
    have hl := h.logged (s.log ++ [Obs.startR i])
    dsimp only
    split
    · exact (hl.grabR hf).resumeR
    · rename_i hn
      simp only [St.readReady, not_or, Bool.not_eq_true, Bool.or_eq_false_iff] at hn
      split
      · rename_i hq
        exact Or.inr (hl.queueR conn txn hf hn.2 hn.1.2 hq)
      · rename_i w rest hq
        split
        · rename_i hw
          exact ((hl.handR txn hf hn.2 hq hw).hits _).resumeW
        · exact Or.inl rfl

theorem WF.awaitW {s : St} (h : WF s none) (i : Nat) (conn txn : Bool) (hits : List Tok) :
    (s.awaitW i conn txn hits).ub = true ∨ WF (s.awaitW i conn txn hits) none := by
  rw [awaitW_eq]
  split
  · exact Or.inr h
  · rename_i hf
    simp only [ne_eq, Decidable.not_not] at hf
    have hl := h.logged (s.log ++ [Obs.startW i])
    dsimp only
    split
    · exact (hl.grabW hf).resumeW
    · rename_i hn
      simp only [St.writeReady, not_or, Bool.not_eq_true, Bool.or_eq_false_iff] at hn
      have hk : (s.W i).closedF = false := by
        have := h.wclosed i
        have := hn.1.2
        grind
      split
      · rename_i hq
        exact Or.inr (hl.queueW conn txn hf hn.2 hn.1.2 hk hq)
      · rename_i w rest hq
        split
        · rename_i hw
          exact ((hl.handW txn hf hn.2 hk hq hw).hits _).resumeR
        · exact Or.inl rfl

theorem WF.mkR {s : St} (h : WF s none) : WF (s.step .mkR) none := by
  unfold St.step
  split
  · exact h
  · have := h.rnew s.nextR (Nat.le_refl _)
    have := h.rlink s.nextR
    have := h.rpost s.nextR
    constructor
    all_goals (cases h; simp only; grind)

theorem WF.mkW {s : St} (h : WF s none) : WF (s.step .mkW) none := by
  unfold St.step
  split
  · exact h
  · have := h.wnew s.nextW (Nat.le_refl _)
    have := h.wlink s.nextW
    have := h.wpost s.nextW
    constructor
    all_goals (cases h; simp only; grind)

theorem WF.step {s : St} (h : WF s none) (e : Ev) : (s.step e).ub = true ∨ WF (s.step e) none := by
  by_cases hu : s.ub = true
  · left; simp [St.step, hu]
  · cases e with
    | mkR => exact Or.inr h.mkR
    | mkW => exact Or.inr h.mkW
    | awaitR i c t l => simpa [St.step, hu] using h.awaitR i c t l
    | awaitW i c t l => simpa [St.step, hu] using h.awaitW i c t l
    | run k => simpa [St.step, hu] using h.run k
    | cancelR i => right; simpa [St.step, hu] using h.cancelR i
    | cancelW i => right; simpa [St.step, hu] using h.cancelW i
    | intR i => right; simpa [St.step, hu] using h.intR i
    | intW i => right; simpa [St.step, hu] using h.intW i
    | dropR i => right; simpa [St.step, hu] using h.dropR i
    | dropW i => right; simpa [St.step, hu] using h.dropW i
    | close => right; simpa [St.step, hu] using h.close

theorem steps_snoc (s : St) (es : List Ev) (e : Ev) : s.steps (es ++ [e]) = (s.steps es).step e := by
  simp [St.steps]

/-- Induction over executions. -/
theorem exec_induction (cap : Nat) {P : St → Prop} (h0 : P (St.init cap))
    (hs : ∀ s e, P s → P (s.step e)) (es : List Ev) : P (exec cap es) := by
  suffices ∀ s, P s → P (s.steps es) from this _ h0
  induction es with
  | nil => intro s h; exact h
  | cons e es ih => intro s h; exact ih _ (hs _ _ h)

theorem WF.exec (cap : Nat) (es : List Ev) : (exec cap es).ub = true ∨ WF (exec cap es) none := by
  apply exec_induction cap (P := fun s => s.ub = true ∨ WF s none)
  · exact Or.inr (WF.init cap)
  · intro s e h
    rcases h with h | h
    · left; simp [St.step, h]
    · exact h.step e

end Cobalt.Chan
