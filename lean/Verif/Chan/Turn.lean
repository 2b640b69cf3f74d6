import Verif.Chan.Persist
import Verif.Chan.Rendezvous2
import Verif.Chan.TurnSpec
/-! Helper: if operations take turns, no value is lost with any number of producers and consumers. -/
namespace Cobalt.Chan

def St.lR (s : St) (i : Nat) : Prop := Tok.r i ∈ s.posted ∧ (s.R i).cancelled = false
def St.lW (s : St) (i : Nat) : Prop := Tok.w i ∈ s.posted ∧ (s.W i).cancelled = false

structure T (s : St) : Prop where
  lim : s.buf.length ≤ s.cap
  fine : s.asserted = false
  rr : ∀ i j, s.lR i → s.lR j → i = j
  ww : ∀ i j, s.lW i → s.lW j → i = j
  rw' : ∀ i j, s.lR i → s.lW j → False
  pr : ∀ i, s.lR i → (s.R i).direct = none → s.buf ≠ []
  pw : ∀ i, s.lW i → (s.W i).direct = false → s.buf.length < s.cap

/-- Nothing is woken. -/
structure T0 (s : St) : Prop where
  lim : s.buf.length ≤ s.cap
  fine : s.asserted = false
  nr : ∀ i, ¬ s.lR i
  nw : ∀ i, ¬ s.lW i

theorem T0.t {s : St} (h : T0 s) : T s :=
  ⟨h.lim, h.fine, fun i _ hi => absurd hi (h.nr i), fun i _ hi => absurd hi (h.nw i), fun i _ hi => absurd hi (h.nr i),
    fun i hi => absurd hi (h.nr i), fun i hi => absurd hi (h.nw i)⟩

theorem T.t0 {s : St} (h : T s) (hw : ¬ s.woken) : T0 s :=
  ⟨h.lim, h.fine, fun i hi => hw ⟨.r i, hi⟩, fun i hi => hw ⟨.w i, hi⟩⟩

theorem T.init (l : Nat) : T (St.init l) := by
  constructor <;> simp [St.init, St.lR, St.lW]

theorem T.endR {s : St} (t : T s) {i : Nat} (hi : Tok.r i ∉ s.posted) (res : RRes) : T (s.endR i res) := by
  constructor
  all_goals (cases t; simp only [St.endR, St.lR, St.lW] at *; grind)

theorem T.endW {s : St} (t : T s) {i : Nat} (hi : Tok.w i ∉ s.posted) (res : WRes) : T (s.endW i res) := by
  constructor
  all_goals (cases t; simp only [St.endW, St.lR, St.lW] at *; grind)

theorem T0.endR {s : St} (t : T0 s) {i : Nat} (hi : Tok.r i ∉ s.posted) (res : RRes) : T0 (s.endR i res) := by
  constructor
  all_goals (cases t; simp only [St.endR, St.lR, St.lW] at *; grind)

theorem T0.endW {s : St} (t : T0 s) {i : Nat} (hi : Tok.w i ∉ s.posted) (res : WRes) : T0 (s.endW i res) := by
  constructor
  all_goals (cases t; simp only [St.endW, St.lR, St.lW] at *; grind)

theorem T0.wakeWriter {s : St} (t : T0 s) (ho : s.closed = false) (hx : s.rq = [] ∨ s.wq = []) : T s.wakeWriter := by
  unfold St.wakeWriter
  split
  · exact t.t
  · rename_i w rest hq
    dsimp only
    split
    · rename_i hr
      have hr' : s.buf.length ≠ s.cap := by
        simpa [St.writeReady, ho] using hr
      split
      · constructor
        all_goals (cases t; simp only [St.lR, St.lW] at *; grind)
      · constructor
        all_goals (cases t; simp only [St.lR, St.lW] at *; grind)
    · constructor
      all_goals (cases t; simp only [St.lR, St.lW] at *; grind)

theorem T0.wakeReader {s : St} (t : T0 s) (ho : s.closed = false) (hx : s.rq = [] ∨ s.wq = []) : T s.wakeReader := by
  unfold St.wakeReader
  split
  · exact t.t
  · rename_i w rest hq
    dsimp only
    split
    · rename_i hr
      have hr' : s.buf ≠ [] := by
        simpa [St.readReady, ho] using hr
      split
      · constructor
        all_goals (cases t; simp only [St.lR, St.lW] at *; grind)
      · constructor
        all_goals (cases t; simp only [St.lR, St.lW] at *; grind)
    · constructor
      all_goals (cases t; simp only [St.lR, St.lW] at *; grind)

theorem closed_hits (ts : List Tok) (s : St) : (ts.foldl St.int s).closed = s.closed := by
  induction ts generalizing s with
  | nil => rfl
  | cons t ts ih =>
    rw [List.foldl_cons, ih]
    cases t
    · simp only [St.int, intR_eq]; split
      · rfl
      · split <;> rfl
    · simp only [St.int, intW_eq]; split
      · rfl
      · split <;> rfl

theorem cur_rpost {s : St} {i : Nat} (h : WF s (some (.r i))) : Tok.r i ∉ s.posted :=
  fun hp => (h.rpost i hp).2.2.2 rfl

theorem cur_wpost {s : St} {i : Nat} (h : WF s (some (.w i))) : Tok.w i ∉ s.posted :=
  fun hp => (h.wpost i hp).2.2.2 rfl

theorem T.resumeR {s : St} {i : Nat} (h : WF s (some (.r i))) (k : T s) (ho : s.closed = false)
    (h0 : (s.R i).cancelled = false → T0 s)
    (h1 : (s.R i).cancelled = false → (s.R i).direct = none → s.buf ≠ []) : T (s.resumeR i) := by
  have hi := cur_rpost h
  have hx : s.rq = [] ∨ s.wq = [] := h.excl
  unfold St.resumeR
  rw [if_neg (by simp [ho])]
  split
  · exact k.endR hi _
  · rename_i hc
    have hc' : (s.R i).cancelled = false := by simpa using hc
    have t1 := fun res : RRes => (h0 hc').endR hi res
    split
    · rename_i e1 e2; exact absurd e1 (h1 hc' e2)
    · exact (t1 _).wakeWriter ho hx
    · rename_i b bs e1 e2
      refine T0.wakeWriter ⟨?_, (t1 .aborted).fine, (t1 .aborted).nr, (t1 .aborted).nw⟩ ho hx
      have := k.lim
      rw [e1] at this
      simp only [List.length_cons] at this
      simp only [St.endR]; omega
    · rename_i b bs d e1 e2
      refine T0.wakeWriter ⟨?_, (t1 .aborted).fine, (t1 .aborted).nr, (t1 .aborted).nw⟩ ho hx
      have := k.lim
      rw [e1] at this
      simp only [List.length_cons] at this
      exact length_pushBack _ _ _ (by omega)

theorem T.resumeW {s : St} {i : Nat} (h : WF s (some (.w i))) (k : T s) (ho : s.closed = false)
    (h0 : (s.W i).cancelled = false → T0 s)
    (h1 : (s.W i).cancelled = false → (s.W i).direct = false → s.buf.length < s.cap) : T (s.resumeW i) := by
  have hi := cur_wpost h
  have hx : s.rq = [] ∨ s.wq = [] := h.excl
  unfold St.resumeW
  split
  · exact k.endW hi _
  · split
    · exact k.endW hi _
    · rename_i hc
      have hc' : (s.W i).cancelled = false := by simpa using hc
      have t1 := (h0 hc').endW hi .ok
      split
      · exact t1.wakeReader ho hx
      · rename_i hd
        have hl := h1 hc' (by simpa using hd)
        refine T0.wakeReader ⟨length_pushBack _ _ _ (by omega), ?_, t1.nr, t1.nw⟩ ho hx
        have : ¬ s.buf.length = s.cap := by omega
        simp [this, k.fine]

/-- The writer a reader takes its value from is resumed; nobody can be woken, for the buffer is empty. -/
theorem T.handedW {s : St} {i : Nat} (h : WF s (some (.w i))) (k : T s) (ho : s.closed = false)
    (hd : (s.W i).direct = true) (hn : s.buf = []) : T (s.resumeW i) := by
  have hi := cur_wpost h
  have hx := h.wdir i hd
  have he : s.rq = [] ∨ s.wq = [] := h.excl
  unfold St.resumeW
  rw [hx.1, hx.2, hd, if_neg (by simp), if_neg (by simp), if_pos rfl]
  have t1 := k.endW hi .ok
  unfold St.wakeReader
  split
  · exact t1
  · rename_i j rest hq
    have hq' : s.rq = j :: rest := hq
    have hw : s.wq = [] := by rcases he with he | he <;> simp_all
    dsimp only
    rw [if_neg]
    · exact ⟨t1.lim, by simp [St.endW, hw, k.fine], t1.rr, t1.ww, t1.rw', t1.pr, t1.pw⟩
    · simp [St.readReady, ho, St.endW, hn]

theorem T.handedR {s : St} {i d : Nat} (h : WF s (some (.r i))) (k : T s) (ho : s.closed = false)
    (hd : (s.R i).direct = some d) (hn : s.buf.length = s.cap) : T (s.resumeR i) := by
  have hi := cur_rpost h
  have hx := h.rdir i d hd
  have he : s.rq = [] ∨ s.wq = [] := h.excl
  have full : ∀ s' : St, s'.wq = s.wq → s'.rq = s.rq → s'.closed = false → s'.buf.length = s'.cap → T s' → T s'.wakeWriter := by
    intro s' e1 e2 e3 e4 t1
    unfold St.wakeWriter
    split
    · exact t1
    · rename_i j rest hq
      have hw : s'.rq = [] := by rw [e2]; rw [e1] at hq; rcases he with he | he <;> simp_all
      dsimp only
      rw [if_neg]
      · exact ⟨t1.lim, by simp [hw, t1.fine], t1.rr, t1.ww, t1.rw', t1.pr, t1.pw⟩
      · simp [St.writeReady, e3, e4]
  have t1 := fun res : RRes => k.endR hi res
  unfold St.resumeR
  rw [if_neg (by simp [ho]), hx, if_neg (by simp), hd]
  split
  · rename_i e; cases e
  · rename_i d' e1 e2
    exact full _ rfl rfl ho (by exact hn) (t1 _)
  · rename_i e; cases e
  · rename_i b bs d' e1 e2
    have hlen : (pushBack s.cap bs d').length = s.cap := by
      rw [e1] at hn
      simp only [List.length_cons] at hn
      unfold pushBack
      rw [if_neg (by omega), if_neg (by omega)]
      simp; omega
    refine full _ rfl rfl ho hlen ⟨by exact Nat.le_of_eq hlen, (t1 .aborted).fine, (t1 .aborted).rr, (t1 .aborted).ww,
      (t1 .aborted).rw', ?_, ?_⟩
    · intro j _ _ hb
      have hb' : pushBack s.cap bs d' = [] := hb
      rw [hb'] at hlen
      rw [e1] at hn
      simp only [List.length_cons, List.length_nil] at hn hlen
      omega
    · intro j hj hdj
      have := k.pw j hj hdj
      omega

theorem T.int {s : St} {cur : Option Tok} (h : WF s cur) (j : T s) (t : Tok) : T (s.int t) := by
  cases t with
  | r i =>
    have := h.rwait i
    have := h.rpost i
    simp only [St.int, intR_eq]
    split
    · exact j
    · split
      all_goals
        constructor
        all_goals (cases j; simp only [St.lR, St.lW, St.endR] at *; grind)
  | w i =>
    have := h.wwait i
    have := h.wpost i
    simp only [St.int, intW_eq]
    split
    · exact j
    · split
      all_goals
        constructor
        all_goals (cases j; simp only [St.lR, St.lW, St.endW] at *; grind)

theorem T.hits {s : St} {cur : Option Tok} (h : WF s cur) (k : T s) (ts : List Tok) : T (ts.foldl St.int s) := by
  induction ts generalizing s with
  | nil => exact k
  | cons t ts ih => exact ih (h.int t) (k.int h t)

theorem int_keep (s : St) (t : Tok) : (s.int t).buf = s.buf ∧ (s.int t).cap = s.cap ∧
    (∀ i d, (s.R i).direct = some d → ((s.int t).R i).direct = some d) ∧
    (∀ i, (s.W i).direct = true → ((s.int t).W i).direct = true) := by
  cases t with
  | r i =>
    simp only [St.int, intR_eq]
    split
    · simp
    · split <;> (simp only [St.endR, upd]; grind)
  | w i =>
    simp only [St.int, intW_eq]
    split
    · simp
    · split <;> (simp only [St.endW, upd]; grind)

theorem hits_keep (ts : List Tok) (s : St) : (ts.foldl St.int s).buf = s.buf ∧ (ts.foldl St.int s).cap = s.cap ∧
    (∀ i d, (s.R i).direct = some d → ((ts.foldl St.int s).R i).direct = some d) ∧
    (∀ i, (s.W i).direct = true → ((ts.foldl St.int s).W i).direct = true) := by
  induction ts generalizing s with
  | nil => exact ⟨rfl, rfl, fun _ _ h => h, fun _ h => h⟩
  | cons t ts ih =>
    obtain ⟨a, b, c, d⟩ := ih (s.int t)
    obtain ⟨a', b', c', d'⟩ := int_keep s t
    rw [List.foldl_cons]
    exact ⟨a.trans a', b.trans b', fun i x hi => c i x (c' i x hi), fun i hi => d i (d' i hi)⟩

theorem T.started {s : St} (k : T s) (o : Obs) : T { s with log := s.log ++ [o] } :=
  ⟨k.lim, k.fine, k.rr, k.ww, k.rw', k.pr, k.pw⟩

theorem T0.started {s : St} (k : T0 s) (o : Obs) : T0 { s with log := s.log ++ [o] } :=
  ⟨k.lim, k.fine, k.nr, k.nw⟩

theorem WF.started {s : St} {c : Option Tok} (h : WF s c) (o : Obs) : WF { s with log := s.log ++ [o] } c := by
  constructor
  all_goals (cases h; grind)

theorem T.awaitR {s : St} (h : WF s none) (k : T s) (ho : s.closed = false) (hw : ¬ s.woken)
    (i : Nat) (conn txn : Bool) (hits : List Tok) :
    (s.awaitR i conn txn hits).ub = true ∨ T (s.awaitR i conn txn hits) := by
  have t0 := k.t0 hw
  rw [awaitR_eq]
  split
  · exact Or.inr k
  · rename_i hf
    simp only [ne_eq, Decidable.not_not] at hf
    have t1 := t0.started (.startR i)
    have h1 := h.started (.startR i)
    have hf1 : (({ s with log := s.log ++ [.startR i] } : St).R i).status = .fresh := hf
    have ho1 : ({ s with log := s.log ++ [.startR i] } : St).closed = false := ho
    generalize ({ s with log := s.log ++ [.startR i] } : St) = s1 at *
    dsimp only
    split
    · rename_i hc
      right
      refine T.resumeR (h1.grabR hf1) t1.t ho1 (fun _ => t1) fun hcan _ => ?_
      rcases hc with hc | hc
      · simpa [St.readReady, ho1] using hc
      · simp [hcan] at hc
    · rename_i hc
      have hn : s1.buf = [] := by
        have : ¬ s1.readReady = true := fun h => hc (Or.inl h)
        simpa [St.readReady, ho1] using this
      have hcan : (s1.R i).cancelled = false := by
        cases hh : (s1.R i).cancelled with
        | false => rfl
        | true => exact absurd (Or.inr hh) hc
      split
      · right
        have := h1.rpost i
        constructor
        all_goals (cases t1; simp only [St.queueR, St.lR, St.lW] at *; grind)
      · rename_i w rest hq
        split
        · rename_i hww
          right
          have hw1 := h1.handR txn hf1 hcan hq hww
          have hs := h1.wwait w hww
          obtain ⟨a, b, c, d⟩ := hits_keep (if (s1.W w).txn then hits else []) ((s1.takeFrom i w txn).handR i w)
          refine T.handedW (hw1.hits _) (T.hits hw1 ?_ _) (by rw [closed_hits]; exact ho1) ?_ ?_
          · have := h1.rpost i
            have := h1.wpost w
            constructor
            all_goals (cases t1; simp only [St.takeFrom, St.handR, St.lR, St.lW] at *; grind)
          · exact d w (by simp [St.takeFrom, St.handR, upd])
          · rw [a]; exact hn
        · exact Or.inl rfl

theorem T.awaitW {s : St} (h : WF s none) (k : T s) (ho : s.closed = false) (hw : ¬ s.woken)
    (i : Nat) (conn txn : Bool) (hits : List Tok) :
    (s.awaitW i conn txn hits).ub = true ∨ T (s.awaitW i conn txn hits) := by
  have t0 := k.t0 hw
  have hk0 : (s.W i).closedF = false := by have := h.wclosed i; grind
  rw [awaitW_eq]
  split
  · exact Or.inr k
  · rename_i hf
    simp only [ne_eq, Decidable.not_not] at hf
    have t1 := t0.started (.startW i)
    have h1 := h.started (.startW i)
    have hf1 : (({ s with log := s.log ++ [.startW i] } : St).W i).status = .fresh := hf
    have hk : (({ s with log := s.log ++ [.startW i] } : St).W i).closedF = false := hk0
    have ho1 : ({ s with log := s.log ++ [.startW i] } : St).closed = false := ho
    generalize ({ s with log := s.log ++ [.startW i] } : St) = s1 at *
    dsimp only
    split
    · rename_i hc
      right
      refine T.resumeW (h1.grabW hf1) t1.t ho1 (fun _ => t1) fun hcan _ => ?_
      rcases hc with hc | hc
      · have : s1.buf.length ≠ s1.cap := by simpa [St.writeReady, ho1] using hc
        have := t1.lim
        omega
      · simp [hcan] at hc
    · rename_i hc
      have hn : s1.buf.length = s1.cap := by
        have : ¬ s1.writeReady = true := fun h => hc (Or.inl h)
        simpa [St.writeReady, ho1] using this
      have hcan : (s1.W i).cancelled = false := by
        cases hh : (s1.W i).cancelled with
        | false => rfl
        | true => exact absurd (Or.inr hh) hc
      split
      · right
        have := h1.wpost i
        constructor
        all_goals (cases t1; simp only [St.queueW, St.lR, St.lW] at *; grind)
      · rename_i w rest hq
        split
        · rename_i hww
          right
          have hw1 := h1.handW txn hf1 hcan hk hq hww
          have hs := h1.rwait w hww
          obtain ⟨a, b, c, d⟩ := hits_keep (if (s1.R w).txn then hits else []) ((s1.giveTo i w txn).handW i w)
          refine T.handedR (d := i) (hw1.hits _) (T.hits hw1 ?_ _) (by rw [closed_hits]; exact ho1) ?_ ?_
          · have := h1.wpost i
            have := h1.rpost w
            constructor
            all_goals (cases t1; simp only [St.giveTo, St.handW, St.lR, St.lW] at *; grind)
          · exact c w i (by simp [St.giveTo, St.handW, upd])
          · rw [a, b]; exact hn
        · exact Or.inl rfl

theorem T.unpost {s : St} (h : WF s none) (j : T s) {k : Nat} {t : Tok} (hk : s.posted[k]? = some t) :
    T { s with posted := s.posted.eraseIdx k } := by
  have hm := nodup_eraseIdx_mem h.ndP hk
  constructor
  all_goals (cases j; simp only [St.lR, St.lW] at *; grind)

theorem T.run {s : St} (h : WF s none) (j : T s) (ho : s.closed = false) (n : Nat) : T (s.run n) := by
  unfold St.run
  split
  · exact j
  · rename_i i hk
    have hin : Tok.r i ∈ s.posted := List.mem_of_getElem? hk
    have hm := nodup_eraseIdx_mem h.ndP hk
    refine T.resumeR (h.unpost hk) (j.unpost h hk) ho (fun hc => ?_) fun hc hd => j.pr i ⟨hin, hc⟩ hd
    constructor
    all_goals (cases j; simp only [St.lR, St.lW] at *; grind)
  · rename_i i hk
    have hin : Tok.w i ∈ s.posted := List.mem_of_getElem? hk
    have hm := nodup_eraseIdx_mem h.ndP hk
    refine T.resumeW (h.unpost hk) (j.unpost h hk) ho (fun hc => ?_) fun hc hd => j.pw i ⟨hin, hc⟩ hd
    constructor
    all_goals (cases j; simp only [St.lR, St.lW] at *; grind)

theorem T.cancelR {s : St} (j : T s) (i : Nat) : T (s.cancelR i) := by
  unfold St.cancelR
  split
  · constructor
    all_goals (cases j; simp only [St.lR, St.lW] at *; grind)
  · exact j

theorem T.cancelW {s : St} (j : T s) (i : Nat) : T (s.cancelW i) := by
  unfold St.cancelW
  split
  · constructor
    all_goals (cases j; simp only [St.lR, St.lW] at *; grind)
  · exact j

theorem T.dropR {s : St} (h : WF s none) (j : T s) (i : Nat) : T (s.dropR i) := by
  unfold St.dropR
  split
  · have := h.rpost i
    constructor
    all_goals (cases j; simp only [St.lR, St.lW] at *; grind)
  · exact j

theorem T.dropW {s : St} (h : WF s none) (j : T s) (i : Nat) : T (s.dropW i) := by
  unfold St.dropW
  split
  · have := h.wpost i
    constructor
    all_goals (cases j; simp only [St.lR, St.lW] at *; grind)
  · exact j

theorem T.mkR {s : St} (h : WF s none) (j : T s) (hu : s.ub = false) : T (s.step .mkR) := by
  have h1 := h.rpost s.nextR
  have h2 := h.rnew s.nextR (Nat.le_refl _)
  simp only [St.step, hu]
  constructor
  all_goals (cases j; simp only [St.lR, St.lW] at *; grind)

theorem T.mkW {s : St} (h : WF s none) (j : T s) (hu : s.ub = false) : T (s.step .mkW) := by
  have h1 := h.wpost s.nextW
  have h2 := h.wnew s.nextW (Nat.le_refl _)
  simp only [St.step, hu]
  constructor
  all_goals (cases j; simp only [St.lR, St.lW] at *; grind)

theorem T.step {s : St} (h : WF s none) (k : T s) (ho : s.closed = false) (e : Ev)
    (hs : Turns s [e]) (hc : e ≠ .close) : (s.step e).ub = true ∨ T (s.step e) := by
  by_cases hu : s.ub = true
  · left; simp [St.step, hu]
  · have hu' : s.ub = false := by simpa using hu
    cases e with
    | mkR => right; exact k.mkR h hu'
    | mkW => right; exact k.mkW h hu'
    | awaitR i c t l => simpa [St.step, hu] using k.awaitR h ho hs.1 i c t l
    | awaitW i c t l => simpa [St.step, hu] using k.awaitW h ho hs.1 i c t l
    | run n => right; simpa [St.step, hu] using k.run h ho n
    | cancelR i => right; simp only [St.step]; rw [if_neg hu]; exact k.cancelR i
    | cancelW i => right; simp only [St.step]; rw [if_neg hu]; exact k.cancelW i
    | intR i => right; simp only [St.step]; rw [if_neg hu]; exact k.int h (.r i)
    | intW i => right; simp only [St.step]; rw [if_neg hu]; exact k.int h (.w i)
    | dropR i => right; simp only [St.step]; rw [if_neg hu]; exact k.dropR h i
    | dropW i => right; simp only [St.step]; rw [if_neg hu]; exact k.dropW h i
    | close => exact absurd rfl hc

theorem turns_steps {s : St} (h : WF s none) (k : T s) (es : List Ev) (hs : Turns s es)
    (ho : (s.steps es).closed = false) (hu : (s.steps es).ub = false) : T (s.steps es) := by
  induction es generalizing s with
  | nil => exact k
  | cons e es ih =>
    have hu' : (s.step e).ub = false := by
      cases hx : (s.step e).ub with
      | false => rfl
      | true =>
        have : ((s.step e).steps es).ub = true := by rw [Chan.steps_ub hx]; exact hx
        have h2 : (s.steps (e :: es)).ub = ((s.step e).steps es).ub := rfl
        rw [h2, this] at hu; cases hu
    have h1 : WF (s.step e) none := by
      rcases h.step e with h1 | h1
      · rw [hu'] at h1; cases h1
      · exact h1
    have ho' : (s.step e).closed = false := by
      cases hx : (s.step e).closed with
      | false => rfl
      | true =>
        have := (Rel.steps es (Or.inr h1)).closed hx
        have h2 : (s.steps (e :: es)).closed = ((s.step e).steps es).closed := rfl
        rw [h2, this] at ho; cases ho
    have ho0 : s.closed = false := by
      cases hx : s.closed with
      | false => rfl
      | true => rw [(Rel.step h e).closed hx] at ho'; cases ho'
    have hc : e ≠ .close := by
      rintro rfl
      by_cases hx : s.ub = true
      · simp [St.step, hx] at hu'
      · simp [St.step, hx, St.close] at ho'
    rcases k.step h ho0 e ⟨hs.1, trivial⟩ hc with k1 | k1
    · rw [hu'] at k1; cases k1
    · exact ih h1 k1 hs.2 ho hu

theorem turns_snoc (es : List Ev) (e : Ev) : ∀ s : St, Turns s (es ++ [e]) → Turns s es := by
  induction es with
  | nil => intro s _; exact trivial
  | cons a es ih => intro s h; exact ⟨h.1, ih _ h.2⟩

theorem tidy_snoc (es : List Ev) (e : Ev) : ∀ s : St, Tidy s (es ++ [e]) →
    Tidy s es ∧ ((s.steps es).noStale ∨ e.isDrop = true) := by
  induction es with
  | nil => intro s h; exact ⟨trivial, h.1⟩
  | cons a es ih => intro s h; exact ⟨⟨h.1, (ih _ h.2).1⟩, (ih _ h.2).2⟩

end Cobalt.Chan
