import Verif.VChan.Frame
/-! Helper: with any number of producers and consumers the counter is right modulo 2^64. -/
namespace Cobalt.VChan

open Chan (Status Tok upd)

/-- The counter is the number of tokens there should be, modulo 2^64. -/
def M (s : St) : Prop := s.n = BitVec.ofInt 64 s.v

theorem M.same {s t : St} (m : M s) (h : t.v = s.v ∧ t.n = s.n) : M t := by
  unfold M; rw [h.1, h.2]; exact m

theorem M.resumeR {s : St} {i : Nat} (h : WF s (some (.r i))) (m : M s) (ho : s.closed = false) :
    M (s.resumeR i) := by
  rcases v_resumeR h ho with h1 | ⟨-, -, h3, h4⟩
  · exact m.same h1
  · unfold M
    rw [h3, h4, m, Int.sub_eq_add_neg, BitVec.ofInt_add, BitVec.sub_eq_add_neg]; rfl

theorem M.resumeW {s : St} {i : Nat} (h : WF s (some (.w i))) (m : M s) (ho : s.closed = false) :
    M (s.resumeW i) := by
  rcases v_resumeW h ho with h1 | ⟨-, -, h3, h4⟩
  · exact m.same h1
  · unfold M
    rw [h3, h4, m, BitVec.ofInt_add]; rfl

theorem M.awaitR {s : St} (h : WF s none) (k : M s) (ho : s.closed = false) (i : Nat) (conn txn : Bool)
    (hits : List Tok) : (s.awaitR i conn txn hits).ub = true ∨ M (s.awaitR i conn txn hits) := by
  rw [awaitR_eq]
  split
  · exact Or.inr k
  · rename_i hf
    simp only [ne_eq, Decidable.not_not] at hf
    split
    · exact Or.inr (M.resumeR (h.grabR hf) k ho)
    · rename_i hc
      simp only [St.readReady, not_or, Bool.not_eq_true, Bool.or_eq_false_iff] at hc
      split
      · exact Or.inr (k.same (v_queueR h conn txn hf))
      · rename_i w rest hq
        split
        · rename_i hw
          right
          have hw1 := h.handR txn hf hc.2 hq hw
          exact M.resumeW (hw1.hits _) (((k.same (v_handR h txn hf hq hw))).same (v_hits hw1 _))
            (by rw [closed_hits]; exact ho)
        · exact Or.inl rfl

theorem M.awaitW {s : St} (h : WF s none) (k : M s) (ho : s.closed = false) (i : Nat) (conn txn : Bool)
    (hits : List Tok) : (s.awaitW i conn txn hits).ub = true ∨ M (s.awaitW i conn txn hits) := by
  have hk : (s.W i).closedF = false := by have := h.wclosed i; grind
  rw [awaitW_eq]
  split
  · exact Or.inr k
  · rename_i hf
    simp only [ne_eq, Decidable.not_not] at hf
    split
    · exact Or.inr (M.resumeW (h.grabW hf) k ho)
    · rename_i hc
      simp only [St.writeReady, not_or, Bool.not_eq_true, Bool.or_eq_false_iff] at hc
      split
      · exact Or.inr (k.same (v_queueW h conn txn hf))
      · rename_i w rest hq
        split
        · rename_i hw
          right
          have hw1 := h.handW txn hf hc.2 hk hq hw
          exact M.resumeR (hw1.hits _) (((k.same (v_handW h txn hf hq hw))).same (v_hits hw1 _))
            (by rw [closed_hits]; exact ho)
        · exact Or.inl rfl

theorem M.step {s : St} (h : WF s none) (m : M s) (ho : s.closed = false) (e : Ev) (hc : e ≠ .close) :
    (s.step e).ub = true ∨ M (s.step e) := by
  by_cases hu : s.ub = true
  · left; simp [St.step, hu]
  · have hu' : s.ub = false := by simpa using hu
    cases e with
    | mkR => exact .inr (m.same (v_mkR hu'))
    | mkW => exact .inr (m.same (v_mkW hu'))
    | awaitR i c t l => simpa [St.step, hu] using m.awaitR h ho i c t l
    | awaitW i c t l => simpa [St.step, hu] using m.awaitW h ho i c t l
    | run n =>
      right; simp only [St.step]; rw [if_neg hu]
      unfold St.run
      split
      · exact m
      · rename_i i hk
        exact M.resumeR (h.unpost hk) m ho
      · rename_i i hk
        exact M.resumeW (h.unpost hk) m ho
    | cancelR i => right; simp only [St.step]; rw [if_neg hu]; exact m.same (v_cancelR s i)
    | cancelW i => right; simp only [St.step]; rw [if_neg hu]; exact m.same (v_cancelW s i)
    | intR i => right; simp only [St.step]; rw [if_neg hu]; exact m.same (v_int h (.r i))
    | intW i => right; simp only [St.step]; rw [if_neg hu]; exact m.same (v_int h (.w i))
    | dropR i => right; simp only [St.step]; rw [if_neg hu]; exact m.same (v_dropR s i)
    | dropW i => right; simp only [St.step]; rw [if_neg hu]; exact m.same (v_dropW s i)
    | close => exact absurd rfl hc

theorem mod_steps {s : St} (h : WF s none) (m : M s) (es : List Ev)
    (ho : (s.steps es).closed = false) (hu : (s.steps es).ub = false) : M (s.steps es) := by
  induction es generalizing s with
  | nil => exact m
  | cons e es ih =>
    have ho' : (s.step e).closed = false := by
      cases hc : (s.step e).closed
      · rfl
      · have : ∀ (es : List Ev) (t : St), t.closed = true → (t.steps es).closed = true := by
          intro es
          induction es with
          | nil => intro t h; exact h
          | cons e es ih => intro t h; exact ih _ (closed_step' e h)
        have := this es _ hc
        rw [show s.steps (e :: es) = (s.step e).steps es from rfl, this] at ho
        cases ho
    have hu' : (s.step e).ub = false := by
      cases hx : (s.step e).ub
      · rfl
      · have : ∀ (es : List Ev) (t : St), t.ub = true → (t.steps es).ub = true := by
          intro es
          induction es with
          | nil => intro t h; exact h
          | cons e es ih => intro t h; exact ih _ (by rw [ub_step e h]; exact h)
        have := this es _ hx
        rw [show s.steps (e :: es) = (s.step e).steps es from rfl, this] at hu
        cases hu
    have hu0 : s.ub = false := by
      cases hx : s.ub
      · rfl
      · rw [ub_step e hx, hx] at hu'; cases hu'
    have hc : e ≠ .close := by
      rintro rfl
      simp [St.step, hu0, St.close] at ho'
    rcases h.step e with h1 | h1
    · rw [hu'] at h1; cases h1
    · rcases m.step h (open_step e ho') e hc with k1 | k1
      · rw [hu'] at k1; cases k1
      · exact ih h1 k1 ho hu

end Cobalt.VChan
