import Verif.VChan.Bound
import Verif.VChan.TurnSpec
/-! Helper: if operations take turns, the counter is right for any number of producers and consumers. -/
namespace Cobalt.VChan
open Chan (Status Tok upd)

def St.lR (s : St) (i : Nat) : Prop := Tok.r i ∈ s.posted ∧ (s.R i).cancelled = false
def St.lW (s : St) (i : Nat) : Prop := Tok.w i ∈ s.posted ∧ (s.W i).cancelled = false

structure T (s : St) : Prop where
  lim : s.n.toNat ≤ s.limit.toNat
  rr : ∀ i j, s.lR i → s.lR j → i = j
  ww : ∀ i j, s.lW i → s.lW j → i = j
  rw' : ∀ i j, s.lR i → s.lW j → False
  pr : ∀ i, s.lR i → (s.R i).direct = false → 0 < s.n.toNat
  pw : ∀ i, s.lW i → (s.W i).direct = false → s.n.toNat < s.limit.toNat

/-- Nothing is woken. -/
structure T0 (s : St) : Prop where
  lim : s.n.toNat ≤ s.limit.toNat
  nr : ∀ i, ¬ s.lR i
  nw : ∀ i, ¬ s.lW i

theorem T0.t {s : St} (h : T0 s) : T s :=
  ⟨h.lim, fun i _ hi => absurd hi (h.nr i), fun i _ hi => absurd hi (h.nw i), fun i _ hi => absurd hi (h.nr i),
    fun i hi => absurd hi (h.nr i), fun i hi => absurd hi (h.nw i)⟩

theorem T.t0 {s : St} (h : T s) (hw : ¬ s.woken) : T0 s :=
  ⟨h.lim, fun i hi => hw ⟨.r i, hi⟩, fun i hi => hw ⟨.w i, hi⟩⟩

theorem T.init (l : BitVec 64) : T (St.init l) := by
  constructor <;> simp [St.init, St.lR, St.lW]

theorem T.endR {s : St} (t : T s) {i : Nat} (hi : Tok.r i ∉ s.posted) (res : Res) : T (s.endR i res) := by
  constructor
  all_goals (cases t; simp only [St.endR, St.lR, St.lW] at *; grind)

theorem T.endW {s : St} (t : T s) {i : Nat} (hi : Tok.w i ∉ s.posted) (res : Res) : T (s.endW i res) := by
  constructor
  all_goals (cases t; simp only [St.endW, St.lR, St.lW] at *; grind)

theorem T0.endR {s : St} (t : T0 s) {i : Nat} (hi : Tok.r i ∉ s.posted) (res : Res) : T0 (s.endR i res) := by
  constructor
  all_goals (cases t; simp only [St.endR, St.lR, St.lW] at *; grind)

theorem T0.endW {s : St} (t : T0 s) {i : Nat} (hi : Tok.w i ∉ s.posted) (res : Res) : T0 (s.endW i res) := by
  constructor
  all_goals (cases t; simp only [St.endW, St.lR, St.lW] at *; grind)

theorem T0.wakeWriter {s : St} (t : T0 s) (ho : s.closed = false) : T s.wakeWriter := by
  unfold St.wakeWriter
  split
  · exact t.t
  · rename_i w rest hq
    dsimp only
    split
    · rename_i hr
      have hr' : s.n.toNat < s.limit.toNat := by
        simpa [St.writeReady, ho, ult_iff] using hr
      split
      · constructor
        all_goals (cases t; simp only [St.lR, St.lW] at *; grind)
      · constructor
        all_goals (cases t; simp only [St.lR, St.lW] at *; grind)
    · constructor
      all_goals (cases t; simp only [St.lR, St.lW] at *; grind)

theorem T0.wakeReader {s : St} (t : T0 s) (ho : s.closed = false) : T s.wakeReader := by
  unfold St.wakeReader
  split
  · exact t.t
  · rename_i w rest hq
    dsimp only
    split
    · rename_i hr
      have hr' : 0 < s.n.toNat := by
        simpa [St.readReady, ho, ult_iff] using hr
      split
      · constructor
        all_goals (cases t; simp only [St.lR, St.lW] at *; grind)
      · constructor
        all_goals (cases t; simp only [St.lR, St.lW] at *; grind)
    · constructor
      all_goals (cases t; simp only [St.lR, St.lW] at *; grind)

theorem bv_dec {n : BitVec 64} (h : 0 < n.toNat) : (n - 1#64).toNat = n.toNat - 1 := by
  have := n.isLt
  rw [BitVec.toNat_sub]
  simp
  omega

theorem bv_inc {n l : BitVec 64} (h : n.toNat < l.toNat) : (n + 1#64).toNat = n.toNat + 1 := by
  have := l.isLt
  rw [BitVec.toNat_add]
  simp
  omega

/-- The facts the property is about. -/
structure U (s : St) : Prop where
  t : T s
  eq : s.v = s.n.toNat

theorem cur_rpost {s : St} {i : Nat} (h : WF s (some (.r i))) : Tok.r i ∉ s.posted :=
  fun hp => (h.rpost i hp).2.2.2 rfl

theorem cur_wpost {s : St} {i : Nat} (h : WF s (some (.w i))) : Tok.w i ∉ s.posted :=
  fun hp => (h.wpost i hp).2.2.2 rfl

theorem U.resumeR {s : St} {i : Nat} (h : WF s (some (.r i))) (k : U s) (ho : s.closed = false)
    (h0 : (s.R i).cancelled = false → T0 s)
    (h1 : (s.R i).cancelled = false → (s.R i).direct = false → 0 < s.n.toNat) : U (s.resumeR i) := by
  have hv := v_resumeR h ho
  have hi := cur_rpost h
  refine ⟨?_, ?_⟩
  · unfold St.resumeR
    rw [if_neg (by simp [ho])]
    split
    · exact k.t.endR hi _
    · rename_i hc
      have hc' : (s.R i).cancelled = false := by simpa using hc
      split
      · exact ((h0 hc').endR hi _).wakeWriter ho
      · rename_i hd
        have e := bv_dec (h1 hc' (by simpa using hd))
        have t1 := (h0 hc').endR hi .ok
        refine T0.wakeWriter ⟨?_, t1.nr, t1.nw⟩ ho
        have := t1.lim
        simp only [St.endR] at this ⊢
        rw [e]; omega
  · rcases hv with ⟨h2, h3⟩ | ⟨h2, h3, h4, h5⟩
    · rw [h2, h3]; exact k.eq
    · have hn := h1 h3 h2
      have e := bv_dec hn
      rw [h4, h5, e, k.eq]
      omega

theorem U.resumeW {s : St} {i : Nat} (h : WF s (some (.w i))) (k : U s) (ho : s.closed = false)
    (h0 : (s.W i).cancelled = false → T0 s)
    (h1 : (s.W i).cancelled = false → (s.W i).direct = false → s.n.toNat < s.limit.toNat) : U (s.resumeW i) := by
  have hv := v_resumeW h ho
  have hi := cur_wpost h
  refine ⟨?_, ?_⟩
  · unfold St.resumeW
    split
    · exact k.t.endW hi _
    · split
      · exact k.t.endW hi _
      · rename_i hc
        have hc' : (s.W i).cancelled = false := by simpa using hc
        split
        · exact ((h0 hc').endW hi _).wakeReader ho
        · rename_i hd
          have e := bv_inc (h1 hc' (by simpa using hd))
          have t1 := (h0 hc').endW hi .ok
          refine T0.wakeReader ⟨?_, t1.nr, t1.nw⟩ ho
          have := h1 hc' (by simpa using hd)
          simp only [St.endW]
          rw [e]; omega
  · rcases hv with ⟨h2, h3⟩ | ⟨h2, h3, h4, h5⟩
    · rw [h2, h3]; exact k.eq
    · have hn := h1 h3 h2
      have e := bv_inc hn
      rw [h4, h5, e, k.eq]
      omega

/-- The writer a reader takes its token from is resumed; nobody can be woken, for nothing is stored. -/
theorem U.handedW {s : St} {i : Nat} (h : WF s (some (.w i))) (k : U s) (ho : s.closed = false)
    (hd : (s.W i).direct = true) (hn : s.n.toNat = 0) : U (s.resumeW i) := by
  have hv := v_resumeW h ho
  have hi := cur_wpost h
  have hx := h.wdir i hd
  refine ⟨?_, ?_⟩
  · unfold St.resumeW
    rw [hx.1, hx.2, hd, if_neg (by simp), if_neg (by simp), if_pos rfl]
    unfold St.wakeReader
    split
    · exact k.t.endW hi _
    · rw [if_neg]
      · have := k.t.endW hi .ok
        exact ⟨this.lim, this.rr, this.ww, this.rw', this.pr, this.pw⟩
      · intro hr
        have : 0 < s.n.toNat := by simpa [St.readReady, ho, ult_iff, St.endW] using hr
        omega
  · rcases hv with ⟨h2, h3⟩ | ⟨h2, h3, h4, h5⟩
    · rw [h2, h3]; exact k.eq
    · rw [hd] at h2; cases h2

theorem U.handedR {s : St} {i : Nat} (h : WF s (some (.r i))) (k : U s) (ho : s.closed = false)
    (hd : (s.R i).direct = true) (hn : ¬ s.n.toNat < s.limit.toNat) : U (s.resumeR i) := by
  have hv := v_resumeR h ho
  have hi := cur_rpost h
  have hx := h.rdir i hd
  refine ⟨?_, ?_⟩
  · unfold St.resumeR
    rw [if_neg (by simp [ho]), hx, hd, if_neg (by simp), if_pos rfl]
    unfold St.wakeWriter
    split
    · exact k.t.endR hi _
    · rw [if_neg]
      · have := k.t.endR hi .ok
        exact ⟨this.lim, this.rr, this.ww, this.rw', this.pr, this.pw⟩
      · intro hr
        have : s.n.toNat < s.limit.toNat := by simpa [St.writeReady, ho, ult_iff, St.endR] using hr
        omega
  · rcases hv with ⟨h2, h3⟩ | ⟨h2, h3, h4, h5⟩
    · rw [h2, h3]; exact k.eq
    · rw [hd] at h2; cases h2

theorem T.int {s : St} {cur : Option Tok} (h : WF s cur) (j : T s) (t : Tok) : T (s.int t) := by
  cases t with
  | r i =>
    have := h.rwait i
    have := h.rpost i
    simp only [St.int, intR_eq]
    split
    · exact j
    · split
      all_goals
        constructor
        all_goals (cases j; simp only [St.lR, St.lW, St.endR] at *; grind)
  | w i =>
    have := h.wwait i
    have := h.wpost i
    simp only [St.int, intW_eq]
    split
    · exact j
    · split
      all_goals
        constructor
        all_goals (cases j; simp only [St.lR, St.lW, St.endW] at *; grind)

theorem U.hits {s : St} {cur : Option Tok} (h : WF s cur) (k : U s) (ts : List Tok) : U (ts.foldl St.int s) := by
  induction ts generalizing s with
  | nil => exact k
  | cons t ts ih =>
    refine ih (h.int t) ⟨k.t.int h t, ?_⟩
    rw [(v_int h t).1, (v_int h t).2]; exact k.eq

theorem int_keep (s : St) (t : Tok) : (s.int t).n = s.n ∧ (s.int t).limit = s.limit ∧
    (∀ i, (s.R i).direct = true → ((s.int t).R i).direct = true) ∧
    (∀ i, (s.W i).direct = true → ((s.int t).W i).direct = true) := by
  cases t with
  | r i =>
    simp only [St.int, intR_eq]
    split
    · simp
    · split <;> (simp only [St.endR, upd]; grind)
  | w i =>
    simp only [St.int, intW_eq]
    split
    · simp
    · split <;> (simp only [St.endW, upd]; grind)

theorem hits_keep (ts : List Tok) (s : St) : (ts.foldl St.int s).n = s.n ∧ (ts.foldl St.int s).limit = s.limit ∧
    (∀ i, (s.R i).direct = true → ((ts.foldl St.int s).R i).direct = true) ∧
    (∀ i, (s.W i).direct = true → ((ts.foldl St.int s).W i).direct = true) := by
  induction ts generalizing s with
  | nil => exact ⟨rfl, rfl, fun _ h => h, fun _ h => h⟩
  | cons t ts ih =>
    obtain ⟨a, b, c, d⟩ := ih (s.int t)
    obtain ⟨a', b', c', d'⟩ := int_keep s t
    rw [List.foldl_cons]
    exact ⟨a.trans a', b.trans b', fun i hi => c i (c' i hi), fun i hi => d i (d' i hi)⟩

theorem U.awaitR {s : St} (h : WF s none) (k : U s) (ho : s.closed = false) (hw : ¬ s.woken)
    (i : Nat) (conn txn : Bool) (hits : List Tok) :
    (s.awaitR i conn txn hits).ub = true ∨ U (s.awaitR i conn txn hits) := by
  have t0 := k.t.t0 hw
  rw [awaitR_eq]
  split
  · exact Or.inr k
  · rename_i hf
    simp only [ne_eq, Decidable.not_not] at hf
    split
    · rename_i hc
      right
      refine U.resumeR (h.grabR hf) k ho (fun _ => t0) fun hcan _ => ?_
      rcases hc with hc | hc
      · simpa [St.readReady, ho, ult_iff] using hc
      · simp [hcan] at hc
    · rename_i hc
      have hn : s.n.toNat = 0 := by
        have : ¬ s.readReady = true := fun h => hc (Or.inl h)
        simp [St.readReady, ho, ult_iff] at this
        simp [this]
      simp only [St.readReady, not_or, Bool.not_eq_true, Bool.or_eq_false_iff] at hc
      split
      · right
        refine ⟨?_, ?_⟩
        · have := h.rpost i
          constructor
          all_goals (cases t0; simp only [St.queueR, St.lR, St.lW] at *; grind)
        · rw [(v_queueR h conn txn hf).1, (v_queueR h conn txn hf).2]; exact k.eq
      · rename_i w rest hq
        split
        · rename_i hww
          right
          have hw1 := h.handR txn hf hc.2 hq hww
          have hs := h.wwait w hww
          obtain ⟨a, b, c, d⟩ := hits_keep (if (s.W w).txn then hits else []) ((s.takeFrom i w txn).handR i w)
          refine U.handedW (hw1.hits _) (U.hits hw1 ⟨?_, ?_⟩ _) (by rw [closed_hits]; exact ho) ?_ ?_
          · have := h.rpost i
            have := h.wpost w
            constructor
            all_goals (cases t0; simp only [St.takeFrom, St.handR, St.lR, St.lW] at *; grind)
          · rw [(v_handR h txn hf hq hww).1, (v_handR h txn hf hq hww).2]; exact k.eq
          · exact d w (by simp [St.takeFrom, St.handR, upd])
          · rw [a]; exact hn
        · exact Or.inl rfl

theorem U.awaitW {s : St} (h : WF s none) (k : U s) (ho : s.closed = false) (hw : ¬ s.woken)
    (i : Nat) (conn txn : Bool) (hits : List Tok) :
    (s.awaitW i conn txn hits).ub = true ∨ U (s.awaitW i conn txn hits) := by
  have hk : (s.W i).closedF = false := by have := h.wclosed i; grind
  have t0 := k.t.t0 hw
  rw [awaitW_eq]
  split
  · exact Or.inr k
  · rename_i hf
    simp only [ne_eq, Decidable.not_not] at hf
    split
    · rename_i hc
      right
      refine U.resumeW (h.grabW hf) k ho (fun _ => t0) fun hcan _ => ?_
      rcases hc with hc | hc
      · simpa [St.writeReady, ho, ult_iff] using hc
      · simp [hcan] at hc
    · rename_i hc
      have hn : ¬ s.n.toNat < s.limit.toNat := by
        intro hlt
        exact hc (Or.inl (by simpa [St.writeReady, ho, ult_iff] using hlt))
      simp only [St.writeReady, not_or, Bool.not_eq_true, Bool.or_eq_false_iff] at hc
      split
      · right
        refine ⟨?_, ?_⟩
        · have := h.wpost i
          constructor
          all_goals (cases t0; simp only [St.queueW, St.lR, St.lW] at *; grind)
        · rw [(v_queueW h conn txn hf).1, (v_queueW h conn txn hf).2]; exact k.eq
      · rename_i w rest hq
        split
        · rename_i hww
          right
          have hw1 := h.handW txn hf hc.2 hk hq hww
          have hs := h.rwait w hww
          obtain ⟨a, b, c, d⟩ := hits_keep (if (s.R w).txn then hits else []) ((s.giveTo i w txn).handW i w)
          refine U.handedR (hw1.hits _) (U.hits hw1 ⟨?_, ?_⟩ _) (by rw [closed_hits]; exact ho) ?_ ?_
          · have := h.wpost i
            have := h.rpost w
            constructor
            all_goals (cases t0; simp only [St.giveTo, St.handW, St.lR, St.lW] at *; grind)
          · rw [(v_handW h txn hf hq hww).1, (v_handW h txn hf hq hww).2]; exact k.eq
          · exact c w (by simp [St.giveTo, St.handW, upd])
          · rw [a, b]; exact hn
        · exact Or.inl rfl

theorem T.unpost {s : St} (h : WF s none) (j : T s) {k : Nat} {t : Tok} (hk : s.posted[k]? = some t) :
    T { s with posted := s.posted.eraseIdx k } := by
  have hm := nodup_eraseIdx_mem h.ndP hk
  constructor
  all_goals (cases j; simp only [St.lR, St.lW] at *; grind)

theorem U.run {s : St} (h : WF s none) (k : U s) (ho : s.closed = false) (n : Nat) : U (s.run n) := by
  unfold St.run
  split
  · exact k
  · rename_i i hk
    have hin : Tok.r i ∈ s.posted := List.mem_of_getElem? hk
    have hm := nodup_eraseIdx_mem h.ndP hk
    have j := k.t
    refine U.resumeR (h.unpost hk) ⟨k.t.unpost h hk, k.eq⟩ ho (fun hc => ?_) fun hc hd => k.t.pr i ⟨hin, hc⟩ hd
    constructor
    all_goals (cases j; simp only [St.lR, St.lW] at *; grind)
  · rename_i i hk
    have hin : Tok.w i ∈ s.posted := List.mem_of_getElem? hk
    have hm := nodup_eraseIdx_mem h.ndP hk
    have j := k.t
    refine U.resumeW (h.unpost hk) ⟨k.t.unpost h hk, k.eq⟩ ho (fun hc => ?_) fun hc hd => k.t.pw i ⟨hin, hc⟩ hd
    constructor
    all_goals (cases j; simp only [St.lR, St.lW] at *; grind)

theorem T.cancelR {s : St} (j : T s) (i : Nat) : T (s.cancelR i) := by
  unfold St.cancelR
  split
  · constructor
    all_goals (cases j; simp only [St.lR, St.lW] at *; grind)
  · exact j

theorem T.cancelW {s : St} (j : T s) (i : Nat) : T (s.cancelW i) := by
  unfold St.cancelW
  split
  · constructor
    all_goals (cases j; simp only [St.lR, St.lW] at *; grind)
  · exact j

theorem T.dropR {s : St} (h : WF s none) (j : T s) (i : Nat) : T (s.dropR i) := by
  unfold St.dropR
  split
  · have := h.rpost i
    constructor
    all_goals (cases j; simp only [St.lR, St.lW] at *; grind)
  · exact j

theorem T.dropW {s : St} (h : WF s none) (j : T s) (i : Nat) : T (s.dropW i) := by
  unfold St.dropW
  split
  · have := h.wpost i
    constructor
    all_goals (cases j; simp only [St.lR, St.lW] at *; grind)
  · exact j

theorem T.mkR {s : St} (h : WF s none) (j : T s) (hu : s.ub = false) : T (s.step .mkR) := by
  have h1 := h.rpost s.nextR
  have h2 := h.rnew s.nextR (Nat.le_refl _)
  simp only [St.step, hu]
  constructor
  all_goals (cases j; simp only [St.lR, St.lW] at *; grind)

theorem T.mkW {s : St} (h : WF s none) (j : T s) (hu : s.ub = false) : T (s.step .mkW) := by
  have h1 := h.wpost s.nextW
  have h2 := h.wnew s.nextW (Nat.le_refl _)
  simp only [St.step, hu]
  constructor
  all_goals (cases j; simp only [St.lR, St.lW] at *; grind)

theorem U.step {s : St} (h : WF s none) (k : U s) (ho : s.closed = false) (e : Ev)
    (hs : Turns s [e]) (hc : e ≠ .close) : (s.step e).ub = true ∨ U (s.step e) := by
  by_cases hu : s.ub = true
  · left; simp [St.step, hu]
  · have hu' : s.ub = false := by simpa using hu
    cases e with
    | mkR => right; exact ⟨k.t.mkR h hu', by rw [(v_mkR hu').1, (v_mkR hu').2]; exact k.eq⟩
    | mkW => right; exact ⟨k.t.mkW h hu', by rw [(v_mkW hu').1, (v_mkW hu').2]; exact k.eq⟩
    | awaitR i c t l => simpa [St.step, hu] using k.awaitR h ho hs.1 i c t l
    | awaitW i c t l => simpa [St.step, hu] using k.awaitW h ho hs.1 i c t l
    | run n => right; simpa [St.step, hu] using k.run h ho n
    | cancelR i =>
      right; simp only [St.step]; rw [if_neg hu]
      exact ⟨k.t.cancelR i, by rw [(v_cancelR s i).1, (v_cancelR s i).2]; exact k.eq⟩
    | cancelW i =>
      right; simp only [St.step]; rw [if_neg hu]
      exact ⟨k.t.cancelW i, by rw [(v_cancelW s i).1, (v_cancelW s i).2]; exact k.eq⟩
    | intR i =>
      right; simp only [St.step]; rw [if_neg hu]
      exact ⟨k.t.int h (.r i), by rw [show s.intR i = s.int (.r i) from rfl, (v_int h _).1, (v_int h _).2]; exact k.eq⟩
    | intW i =>
      right; simp only [St.step]; rw [if_neg hu]
      exact ⟨k.t.int h (.w i), by rw [show s.intW i = s.int (.w i) from rfl, (v_int h _).1, (v_int h _).2]; exact k.eq⟩
    | dropR i =>
      right; simp only [St.step]; rw [if_neg hu]
      exact ⟨k.t.dropR h i, by rw [(v_dropR s i).1, (v_dropR s i).2]; exact k.eq⟩
    | dropW i =>
      right; simp only [St.step]; rw [if_neg hu]
      exact ⟨k.t.dropW h i, by rw [(v_dropW s i).1, (v_dropW s i).2]; exact k.eq⟩
    | close => exact absurd rfl hc

theorem turns_steps {s : St} (h : WF s none) (k : U s) (es : List Ev) (hs : Turns s es)
    (ho : (s.steps es).closed = false) (hu : (s.steps es).ub = false) : U (s.steps es) := by
  induction es generalizing s with
  | nil => exact k
  | cons e es ih =>
    have ho' : (s.step e).closed = false := by
      clear ih hs h k hu
      have : ∀ (es : List Ev) (t : St), (t.steps es).closed = false → t.closed = false := by
        intro es
        induction es with
        | nil => intro t h; exact h
        | cons e es ih => intro t h; exact open_step e (ih _ h)
      exact this es _ ho
    have hu' : (s.step e).ub = false := by
      by_cases hx : (s.step e).ub = true
      · exfalso
        have : ∀ (es : List Ev) (t : St), t.ub = true → (t.steps es).ub = true := by
          intro es
          induction es with
          | nil => intro t h; exact h
          | cons e es ih => intro t h; exact ih _ (by rw [ub_step e h]; exact h)
        have := this es _ hx
        have h2 : (s.steps (e :: es)).ub = ((s.step e).steps es).ub := rfl
        rw [h2, this] at hu
        cases hu
      · simpa using hx
    have hu0 : s.ub = false := by
      by_cases hx : s.ub = true
      · rw [ub_step e hx, hx] at hu'; cases hu'
      · simpa using hx
    have hc : e ≠ .close := by
      rintro rfl
      simp [St.step, hu0, St.close] at ho'
    rcases h.step e with h1 | h1
    · rw [hu'] at h1; cases h1
    · rcases k.step h (open_step e ho') e ⟨hs.1, trivial⟩ hc with k1 | k1
      · rw [hu'] at k1; cases k1
      · exact ih h1 k1 hs.2 ho hu

end Cobalt.VChan
