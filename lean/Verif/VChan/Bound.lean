import Verif.VChan.Count
/-! Helper: with one producer and one consumer the counter neither passes the
limit nor underflows, and counts the stored tokens. -/
namespace Cobalt.VChan

open Chan (Status Tok upd)

def St.actR (s : St) (cur : Option Tok) (i : Nat) : Prop := (s.R i).status = .susp ∨ cur = some (.r i)
def St.actW (s : St) (cur : Option Tok) (i : Nat) : Prop := (s.W i).status = .susp ∨ cur = some (.w i)

structure J (s : St) (cur : Option Tok) : Prop where
  lim : s.n.toNat ≤ s.limit.toNat
  oneR : ∀ i j, s.actR cur i → s.actR cur j → i = j
  oneW : ∀ i j, s.actW cur i → s.actW cur j → i = j
  pr : ∀ i, (Tok.r i ∈ s.posted ∨ cur = some (.r i)) → (s.R i).direct = false →
    (s.R i).cancelled = false → 0 < s.n.toNat
  pw : ∀ i, (Tok.w i ∈ s.posted ∨ cur = some (.w i)) → (s.W i).direct = false →
    (s.W i).cancelled = false → s.n.toNat < s.limit.toNat

theorem ult_iff (a b : BitVec 64) : BitVec.ult a b = true ↔ a.toNat < b.toNat := by
  simp [BitVec.ult]

theorem J.init (l : BitVec 64) : J (St.init l) none := by
  constructor <;> simp [St.init, St.actR, St.actW]

theorem J.endR {s : St} {i : Nat} (j : J s (some (.r i))) (res : Res) :
    J (s.endR i res) none ∧ ∀ k, ((s.endR i res).R k).status ≠ .susp := by
  have h1 := j.oneR i
  constructor
  · constructor
    all_goals (cases j; simp only [St.endR, St.actR, St.actW] at *; grind)
  · intro k hk
    simp only [St.endR, St.actR] at *
    grind

theorem J.endW {s : St} {i : Nat} (j : J s (some (.w i))) (res : Res) :
    J (s.endW i res) none ∧ ∀ k, ((s.endW i res).W k).status ≠ .susp := by
  have h1 := j.oneW i
  constructor
  · constructor
    all_goals (cases j; simp only [St.endW, St.actR, St.actW] at *; grind)
  · intro k hk
    simp only [St.endW, St.actW] at *
    grind

theorem J.dec {s : St} (h : WF s none) (j : J s none) (hR : ∀ k, (s.R k).status ≠ .susp)
    (hn : 0 < s.n.toNat) :
    J { s with n := s.n - 1#64 } none ∧ (s.n - 1#64).toNat = s.n.toNat - 1 := by
  have e : (s.n - 1#64).toNat = s.n.toNat - 1 := by
    have := s.n.isLt
    rw [BitVec.toNat_sub]
    simp
    omega
  refine ⟨⟨?_, j.oneR, j.oneW, ?_, ?_⟩, e⟩
  · have := j.lim; simp only [e]; omega
  · intro i hi
    rcases hi with hi | hi
    · exact absurd (h.rpost i hi).1 (hR i)
    · cases hi
  · intro i hi h1 h2
    have := j.pw i hi h1 h2
    simp only [e]; omega

theorem J.inc {s : St} (h : WF s none) (j : J s none) (hW : ∀ k, (s.W k).status ≠ .susp)
    (hn : s.n.toNat < s.limit.toNat) :
    J { s with n := s.n + 1#64 } none ∧ (s.n + 1#64).toNat = s.n.toNat + 1 := by
  have e : (s.n + 1#64).toNat = s.n.toNat + 1 := by
    have := s.limit.isLt
    rw [BitVec.toNat_add]
    simp
    omega
  refine ⟨⟨?_, j.oneR, j.oneW, ?_, ?_⟩, e⟩
  · simp only [e]; omega
  · intro i hi h1 h2
    have := j.pr i hi h1 h2
    simp only [e]; omega
  · intro i hi
    rcases hi with hi | hi
    · exact absurd (h.wpost i hi).1 (hW i)
    · cases hi

theorem J.wakeWriter {s : St} (j : J s none) (ho : s.closed = false) : J s.wakeWriter none := by
  unfold St.wakeWriter
  split
  · exact j
  · rename_i w rest hq
    dsimp only
    split
    · rename_i hr
      have hr' : s.n.toNat < s.limit.toNat := by
        simpa [St.writeReady, ho, ult_iff] using hr
      split
      · constructor
        all_goals (cases j; simp only [St.actR, St.actW] at *; grind)
      · constructor
        all_goals (cases j; simp only [St.actR, St.actW] at *; grind)
    · constructor
      all_goals (cases j; simp only [St.actR, St.actW] at *; grind)

theorem J.wakeReader {s : St} (j : J s none) (ho : s.closed = false) : J s.wakeReader none := by
  unfold St.wakeReader
  split
  · exact j
  · rename_i w rest hq
    dsimp only
    split
    · rename_i hr
      have hr' : 0 < s.n.toNat := by
        simpa [St.readReady, ho, ult_iff] using hr
      split
      · constructor
        all_goals (cases j; simp only [St.actR, St.actW] at *; grind)
      · constructor
        all_goals (cases j; simp only [St.actR, St.actW] at *; grind)
    · constructor
      all_goals (cases j; simp only [St.actR, St.actW] at *; grind)

/-- The two facts the property is about. -/
structure K (s : St) (cur : Option Tok) : Prop where
  j : J s cur
  eq : s.v = s.n.toNat

theorem K.resumeR {s : St} {i : Nat} (h : WF s (some (.r i))) (k : K s (some (.r i)))
    (ho : s.closed = false) : K (s.resumeR i) none := by
  have hv := v_resumeR h ho
  have hd := h.rdir i
  have hj : J (s.resumeR i) none := by
    unfold St.resumeR
    rw [if_neg (by simp [ho])]
    split
    · exact (k.j.endR _).1
    · split
      · exact (k.j.endR _).1.wakeWriter ho
      · obtain ⟨j1, j2⟩ := k.j.endR .ok
        have hn : 0 < s.n.toNat := k.j.pr i (Or.inr rfl) (by simp_all) (by simp_all)
        exact ((j1.dec (h.endR _) j2 hn).1).wakeWriter ho
  refine ⟨hj, ?_⟩
  rcases hv with ⟨h1, h2⟩ | ⟨h1, h2, h3, h4⟩
  · rw [h1, h2]; exact k.eq
  · have hn : 0 < s.n.toNat := k.j.pr i (Or.inr rfl) h1 h2
    obtain ⟨j1, j2⟩ := k.j.endR .ok
    have e := (j1.dec (h.endR _) j2 hn).2
    simp only [St.endR] at e
    rw [h3, h4, e, k.eq]
    omega

theorem K.resumeW {s : St} {i : Nat} (h : WF s (some (.w i))) (k : K s (some (.w i)))
    (ho : s.closed = false) : K (s.resumeW i) none := by
  have hv := v_resumeW h ho
  have hd := h.wdir i
  have hj : J (s.resumeW i) none := by
    unfold St.resumeW
    split
    · exact (k.j.endW _).1
    · split
      · exact (k.j.endW _).1
      · split
        · exact (k.j.endW _).1.wakeReader ho
        · obtain ⟨j1, j2⟩ := k.j.endW .ok
          have hn : s.n.toNat < s.limit.toNat := k.j.pw i (Or.inr rfl) (by simp_all) (by simp_all)
          exact ((j1.inc (h.endW _) j2 hn).1).wakeReader ho
  refine ⟨hj, ?_⟩
  rcases hv with ⟨h1, h2⟩ | ⟨h1, h2, h3, h4⟩
  · rw [h1, h2]; exact k.eq
  · have hn : s.n.toNat < s.limit.toNat := k.j.pw i (Or.inr rfl) h1 h2
    obtain ⟨j1, j2⟩ := k.j.endW .ok
    have e := (j1.inc (h.endW _) j2 hn).2
    simp only [St.endW] at e
    rw [h3, h4, e, k.eq]
    omega

theorem J.int {s : St} {cur : Option Tok} (h : WF s cur) (j : J s cur) (t : Tok) : J (s.int t) cur := by
  cases t with
  | r i =>
    have := h.rwait i
    have := h.rcur i
    have := h.rpost i
    simp only [St.int, intR_eq]
    split
    · exact j
    · split
      all_goals
        constructor
        all_goals (cases j; simp only [St.actR, St.actW, St.endR] at *; grind)
  | w i =>
    have := h.wwait i
    have := h.wcur i
    have := h.wpost i
    simp only [St.int, intW_eq]
    split
    · exact j
    · split
      all_goals
        constructor
        all_goals (cases j; simp only [St.actR, St.actW, St.endW] at *; grind)

theorem K.hits {s : St} {cur : Option Tok} (h : WF s cur) (k : K s cur) (ts : List Tok) :
    K (ts.foldl St.int s) cur := by
  induction ts generalizing s with
  | nil => exact k
  | cons t ts ih =>
    refine ih (h.int t) ⟨k.j.int h t, ?_⟩
    rw [(v_int h t).1, (v_int h t).2]; exact k.eq

theorem closed_int (s : St) (t : Tok) : (s.int t).closed = s.closed := by
  cases t
  · simp only [St.int, intR_eq]; split
    · rfl
    · split <;> rfl
  · simp only [St.int, intW_eq]; split
    · rfl
    · split <;> rfl

theorem closed_hits (ts : List Tok) (s : St) : (ts.foldl St.int s).closed = s.closed := by
  induction ts generalizing s with
  | nil => rfl
  | cons t ts ih => rw [List.foldl_cons, ih, closed_int]

theorem K.awaitR {s : St} (h : WF s none) (k : K s none) (ho : s.closed = false)
    (hone : ∀ k, (s.R k).status ≠ .susp) (i : Nat) (conn txn : Bool) (hits : List Tok) :
    (s.awaitR i conn txn hits).ub = true ∨ K (s.awaitR i conn txn hits) none := by
  rw [awaitR_eq]
  split
  · exact Or.inr k
  · rename_i hf
    simp only [ne_eq, Decidable.not_not] at hf
    split
    · rename_i hc
      right
      refine K.resumeR (h.grabR hf) ⟨?_, k.eq⟩ ho
      have hp : (s.R i).cancelled = false → 0 < s.n.toNat := by
        intro hcan
        rcases hc with hc | hc
        · simpa [St.readReady, ho, ult_iff] using hc
        · simp [hcan] at hc
      obtain ⟨j, -⟩ := k
      constructor
      all_goals (cases j; simp only [St.actR, St.actW] at *; grind)
    · rename_i hc
      simp only [St.readReady, not_or, Bool.not_eq_true, Bool.or_eq_false_iff] at hc
      split
      · right
        refine ⟨?_, ?_⟩
        · obtain ⟨j, -⟩ := k
          have := h.rpost i
          constructor
          all_goals (cases j; simp only [St.queueR, St.actR, St.actW] at *; grind)
        · rw [(v_queueR h conn txn hf).1, (v_queueR h conn txn hf).2]; exact k.eq
      · rename_i w rest hq
        split
        · rename_i hw
          right
          have hw1 := h.handR txn hf hc.2 hq hw
          have hs := h.wwait w hw
          refine K.resumeW (hw1.hits _) (K.hits hw1 ⟨?_, ?_⟩ _) (by rw [closed_hits]; exact ho)
          · obtain ⟨j, -⟩ := k
            have := h.rpost i
            have := h.wpost w
            constructor
            all_goals (cases j; simp only [St.takeFrom, St.handR, St.actR, St.actW] at *; grind)
          · rw [(v_handR h txn hf hq hw).1, (v_handR h txn hf hq hw).2]; exact k.eq
        · exact Or.inl rfl

theorem K.awaitW {s : St} (h : WF s none) (k : K s none) (ho : s.closed = false)
    (hone : ∀ k, (s.W k).status ≠ .susp) (i : Nat) (conn txn : Bool) (hits : List Tok) :
    (s.awaitW i conn txn hits).ub = true ∨ K (s.awaitW i conn txn hits) none := by
  have hk : (s.W i).closedF = false := by have := h.wclosed i; grind
  rw [awaitW_eq]
  split
  · exact Or.inr k
  · rename_i hf
    simp only [ne_eq, Decidable.not_not] at hf
    split
    · rename_i hc
      right
      refine K.resumeW (h.grabW hf) ⟨?_, k.eq⟩ ho
      have hp : (s.W i).cancelled = false → s.n.toNat < s.limit.toNat := by
        intro hcan
        rcases hc with hc | hc
        · simpa [St.writeReady, ho, ult_iff] using hc
        · simp [hcan] at hc
      obtain ⟨j, -⟩ := k
      constructor
      all_goals (cases j; simp only [St.actR, St.actW] at *; grind)
    · rename_i hc
      simp only [St.writeReady, not_or, Bool.not_eq_true, Bool.or_eq_false_iff] at hc
      split
      · right
        refine ⟨?_, ?_⟩
        · obtain ⟨j, -⟩ := k
          have := h.wpost i
          constructor
          all_goals (cases j; simp only [St.queueW, St.actR, St.actW] at *; grind)
        · rw [(v_queueW h conn txn hf).1, (v_queueW h conn txn hf).2]; exact k.eq
      · rename_i w rest hq
        split
        · rename_i hw
          right
          have hw1 := h.handW txn hf hc.2 hk hq hw
          have hs := h.rwait w hw
          refine K.resumeR (hw1.hits _) (K.hits hw1 ⟨?_, ?_⟩ _) (by rw [closed_hits]; exact ho)
          · obtain ⟨j, -⟩ := k
            have := h.wpost i
            have := h.rpost w
            constructor
            all_goals (cases j; simp only [St.giveTo, St.handW, St.actR, St.actW] at *; grind)
          · rw [(v_handW h txn hf hq hw).1, (v_handW h txn hf hq hw).2]; exact k.eq
        · exact Or.inl rfl

theorem J.unpost {s : St} (h : WF s none) (j : J s none) {k : Nat} {t : Tok}
    (hk : s.posted[k]? = some t) : J { s with posted := s.posted.eraseIdx k } (some t) := by
  have hm := nodup_eraseIdx_mem h.ndP hk
  have hin : t ∈ s.posted := List.mem_of_getElem? hk
  have h1 := h.rpost
  have h2 := h.wpost
  constructor
  all_goals (cases j; simp only [St.actR, St.actW] at *; grind)

theorem K.run {s : St} (h : WF s none) (k : K s none) (ho : s.closed = false) (n : Nat) :
    K (s.run n) none := by
  unfold St.run
  split
  · exact k
  · rename_i i hk
    exact K.resumeR (h.unpost hk) ⟨k.j.unpost h hk, k.eq⟩ ho
  · rename_i i hk
    exact K.resumeW (h.unpost hk) ⟨k.j.unpost h hk, k.eq⟩ ho

theorem J.cancelR {s : St} (h : WF s none) (j : J s none) (i : Nat) : J (s.cancelR i) none := by
  unfold St.cancelR
  split
  · have := h.rslot i
    constructor
    all_goals (cases j; simp only [St.actR, St.actW] at *; grind)
  · exact j

theorem J.cancelW {s : St} (h : WF s none) (j : J s none) (i : Nat) : J (s.cancelW i) none := by
  unfold St.cancelW
  split
  · have := h.wslot i
    constructor
    all_goals (cases j; simp only [St.actR, St.actW] at *; grind)
  · exact j

theorem J.dropR {s : St} (h : WF s none) (j : J s none) (i : Nat) : J (s.dropR i) none := by
  unfold St.dropR
  split
  · have := h.rpost i
    constructor
    all_goals (cases j; simp only [St.actR, St.actW] at *; grind)
  · exact j

theorem J.dropW {s : St} (h : WF s none) (j : J s none) (i : Nat) : J (s.dropW i) none := by
  unfold St.dropW
  split
  · have := h.wpost i
    constructor
    all_goals (cases j; simp only [St.actR, St.actW] at *; grind)
  · exact j

theorem J.mkR {s : St} (h : WF s none) (j : J s none) (hu : s.ub = false) : J (s.step .mkR) none := by
  have h1 := h.rpost s.nextR
  have h2 := h.rnew s.nextR (Nat.le_refl _)
  simp only [St.step, hu]
  constructor
  all_goals (cases j; simp only [St.actR, St.actW] at *; grind)

theorem J.mkW {s : St} (h : WF s none) (j : J s none) (hu : s.ub = false) : J (s.step .mkW) none := by
  have h1 := h.wpost s.nextW
  have h2 := h.wnew s.nextW (Nat.le_refl _)
  simp only [St.step, hu]
  constructor
  all_goals (cases j; simp only [St.actR, St.actW] at *; grind)

theorem K.step {s : St} (h : WF s none) (k : K s none) (ho : s.closed = false) (e : Ev)
    (hs : Spsc s [e]) (hc : e ≠ .close) : (s.step e).ub = true ∨ K (s.step e) none := by
  by_cases hu : s.ub = true
  · left; simp [St.step, hu]
  · have hu' : s.ub = false := by simpa using hu
    cases e with
    | mkR => right; exact ⟨k.j.mkR h hu', by rw [(v_mkR hu').1, (v_mkR hu').2]; exact k.eq⟩
    | mkW => right; exact ⟨k.j.mkW h hu', by rw [(v_mkW hu').1, (v_mkW hu').2]; exact k.eq⟩
    | awaitR i c t l => simpa [St.step, hu] using k.awaitR h ho hs.1 i c t l
    | awaitW i c t l => simpa [St.step, hu] using k.awaitW h ho hs.1 i c t l
    | run n => right; simpa [St.step, hu] using k.run h ho n
    | cancelR i =>
      right; simp only [St.step]; rw [if_neg hu]
      exact ⟨k.j.cancelR h i, by rw [(v_cancelR s i).1, (v_cancelR s i).2]; exact k.eq⟩
    | cancelW i =>
      right; simp only [St.step]; rw [if_neg hu]
      exact ⟨k.j.cancelW h i, by rw [(v_cancelW s i).1, (v_cancelW s i).2]; exact k.eq⟩
    | intR i =>
      right; simp only [St.step]; rw [if_neg hu]
      exact ⟨k.j.int h (.r i), by rw [show s.intR i = s.int (.r i) from rfl, (v_int h _).1, (v_int h _).2]; exact k.eq⟩
    | intW i =>
      right; simp only [St.step]; rw [if_neg hu]
      exact ⟨k.j.int h (.w i), by rw [show s.intW i = s.int (.w i) from rfl, (v_int h _).1, (v_int h _).2]; exact k.eq⟩
    | dropR i =>
      right; simp only [St.step]; rw [if_neg hu]
      exact ⟨k.j.dropR h i, by rw [(v_dropR s i).1, (v_dropR s i).2]; exact k.eq⟩
    | dropW i =>
      right; simp only [St.step]; rw [if_neg hu]
      exact ⟨k.j.dropW h i, by rw [(v_dropW s i).1, (v_dropW s i).2]; exact k.eq⟩
    | close => exact absurd rfl hc

theorem open_step {s : St} (e : Ev) (h : (s.step e).closed = false) : s.closed = false := by
  by_cases hc : s.closed = true
  swap
  · simpa using hc
  exfalso
  have wW : ∀ t : St, t.wakeWriter.closed = t.closed := by
    intro t; unfold St.wakeWriter; split
    · rfl
    · dsimp only; split
      · split <;> rfl
      · rfl
  have wR : ∀ t : St, t.wakeReader.closed = t.closed := by
    intro t; unfold St.wakeReader; split
    · rfl
    · dsimp only; split
      · split <;> rfl
      · rfl
  have rR : ∀ (t : St) i, (t.resumeR i).closed = t.closed := by
    intro t i; unfold St.resumeR; split
    · rfl
    · split
      · rfl
      · split <;> rw [wW] <;> rfl
  have rW : ∀ (t : St) i, (t.resumeW i).closed = t.closed := by
    intro t i; unfold St.resumeW; split
    · rfl
    · split
      · rfl
      · split <;> rw [wR] <;> rfl
  have : (s.step e).closed = true := by
    unfold St.step
    split
    · exact hc
    · cases e with
      | mkR => exact hc
      | mkW => exact hc
      | awaitR i c t l =>
        dsimp only; rw [awaitR_eq]; split
        · exact hc
        · split
          · rw [rR]; exact hc
          · split
            · exact hc
            · split
              · rw [rW, closed_hits]; exact hc
              · exact hc
      | awaitW i c t l =>
        dsimp only; rw [awaitW_eq]; split
        · exact hc
        · split
          · rw [rW]; exact hc
          · split
            · exact hc
            · split
              · rw [rR, closed_hits]; exact hc
              · exact hc
      | run k =>
        dsimp only; unfold St.run; split
        · exact hc
        · rw [rR]; exact hc
        · rw [rW]; exact hc
      | cancelR i => dsimp only; unfold St.cancelR; split <;> exact hc
      | cancelW i => dsimp only; unfold St.cancelW; split <;> exact hc
      | intR i => exact (closed_int s (.r i)).trans hc
      | intW i => exact (closed_int s (.w i)).trans hc
      | dropR i => dsimp only; unfold St.dropR; split <;> exact hc
      | dropW i => dsimp only; unfold St.dropW; split <;> exact hc
      | close => rfl
  rw [this] at h
  cases h

theorem ub_step {s : St} (e : Ev) (h : s.ub = true) : s.step e = s := by simp [St.step, h]

theorem spsc_steps {s : St} (h : WF s none) (k : K s none) (es : List Ev) (hs : Spsc s es)
    (ho : (s.steps es).closed = false) (hu : (s.steps es).ub = false) : K (s.steps es) none := by
  induction es generalizing s with
  | nil => exact k
  | cons e es ih =>
    have ho' : (s.step e).closed = false := by
      clear ih hs h k hu
      have : ∀ (es : List Ev) (t : St), (t.steps es).closed = false → t.closed = false := by
        intro es
        induction es with
        | nil => intro t h; exact h
        | cons e es ih => intro t h; exact open_step e (ih _ h)
      exact this es _ ho
    have hu' : (s.step e).ub = false := by
      by_cases hx : (s.step e).ub = true
      · exfalso
        have : ∀ (es : List Ev) (t : St), t.ub = true → (t.steps es).ub = true := by
          intro es
          induction es with
          | nil => intro t h; exact h
          | cons e es ih => intro t h; exact ih _ (by rw [ub_step e h]; exact h)
        have := this es _ hx
        have h2 : (s.steps (e :: es)).ub = ((s.step e).steps es).ub := rfl
        rw [h2, this] at hu
        cases hu
      · simpa using hx
    have hu0 : s.ub = false := by
      by_cases hx : s.ub = true
      · rw [ub_step e hx, hx] at hu'; cases hu'
      · simpa using hx
    have hc : e ≠ .close := by
      rintro rfl
      simp [St.step, hu0, St.close] at ho'
    rcases h.step e with h1 | h1
    · rw [hu'] at h1; cases h1
    · rcases k.step h (open_step e ho') e ⟨hs.1, trivial⟩ hc with k1 | k1
      · rw [hu'] at k1; cases k1
      · exact ih h1 k1 hs.2 ho hu

end Cobalt.VChan
