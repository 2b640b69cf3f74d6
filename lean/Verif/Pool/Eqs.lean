import Verif.Pool.Safe
/-! Helper: what single operations do. -/
namespace Cobalt.Chan

theorem wakeReader_nil {s : St} (h : s.rq = []) : s.wakeReader = s := by simp [St.wakeReader, h]
theorem wakeWriter_nil {s : St} (h : s.wq = []) : s.wakeWriter = s := by simp [St.wakeWriter, h]

theorem wakeReader_cons {s : St} {i : Nat} {rest : List Nat} (h : s.rq = i :: rest) (hw : (s.R i).waiting = true)
    (hr : s.readReady = true) : s.wakeReader = { s with
      rq := rest
      R := upd s.R i { s.R i with waiting := false }
      posted := s.posted ++ [.r i]
      asserted := s.asserted || decide (s.wq ≠ []) } := by
  have hr' : ({ s with asserted := s.asserted || decide (s.wq ≠ []) } : St).readReady = true := hr
  unfold St.wakeReader
  split
  · rename_i hq; rw [h] at hq; cases hq
  · rename_i hq
    rw [h] at hq; cases hq
    dsimp only
    rw [if_pos hr', if_pos hw]

theorem wakeWriter_cons {s : St} {i : Nat} {rest : List Nat} (h : s.wq = i :: rest) (hw : (s.W i).waiting = true)
    (hr : s.writeReady = true) : s.wakeWriter = { s with
      wq := rest
      W := upd s.W i { s.W i with waiting := false }
      posted := s.posted ++ [.w i]
      asserted := s.asserted || decide (s.rq ≠ []) } := by
  have hr' : ({ s with asserted := s.asserted || decide (s.rq ≠ []) } : St).writeReady = true := hr
  unfold St.wakeWriter
  split
  · rename_i hq; rw [h] at hq; cases hq
  · rename_i hq
    rw [h] at hq; cases hq
    dsimp only
    rw [if_pos hr', if_pos hw]

/-- An operation that ends without a value given directly. -/
theorem resumeW_eq {s : St} {i : Nat} (h1 : (s.W i).closedF = false) (h2 : (s.W i).cancelled = false)
    (h3 : (s.W i).direct = false) : s.resumeW i = ({ s.endW i .ok with
      buf := pushBack s.cap s.buf i, asserted := s.asserted || decide (s.buf.length = s.cap) } : St).wakeReader := by
  simp [St.resumeW, h1, h2, h3]

theorem resumeR_eq {s : St} {i b : Nat} {bs : List Nat} (h2 : (s.R i).cancelled = false) (h3 : (s.R i).direct = none)
    (hb : s.buf = b :: bs) : s.resumeR i = ({ s.endR i (.value b) with buf := bs } : St).wakeWriter := by
  simp [St.resumeR, h2, h3, hb]

theorem pushBack_room {cap : Nat} {buf : List Nat} {x : Nat} (h : buf.length < cap) : pushBack cap buf x = buf ++ [x] := by
  unfold pushBack
  rw [if_neg (by omega), if_neg (by omega)]

/-- What is looked at. -/
structure View (s : St) (b : Nat) (rq wq : List Nat) (posted : List Tok) (o : Option Tok) : Prop where
  pl : Pl s
  buf : s.buf.length = b
  rq : s.rq = rq
  wq : s.wq = wq
  posted : s.posted = posted
  dW : ∀ i, (s.W i).direct = false
  dR : ∀ i, (s.R i).direct = none
  last : lastTok s.log = o

structure Next (s s' : St) (r w : Nat) : Prop where
  cap : s'.cap = s.cap
  r : s'.nextR = s.nextR + r
  w : s'.nextW = s.nextW + w

theorem pl_write {s : St} (h : Pl s) (hu : (s.steps [.mkW, .awaitW s.nextW true false []]).ub = false) :
    Pl (s.steps [.mkW, .awaitW s.nextW true false []]) := by
  rcases h.write true with h1 | h1
  · rw [hu] at h1; cases h1
  · exact h1.1

theorem pl_read {s : St} (h : Pl s) (hu : (s.steps [.mkR, .awaitR s.nextR true false []]).ub = false) :
    Pl (s.steps [.mkR, .awaitR s.nextR true false []]) := by
  rcases h.read true with h1 | h1
  · rw [hu] at h1; cases h1
  · exact h1.1

/-- The channel just before a new write is awaited … -/
def newW (s : St) : St :=
  { s with W := upd s.W s.nextW { status := .fresh, closedF := s.closed }, nextW := s.nextW + 1
           log := s.log ++ [.startW s.nextW] }

def newR (s : St) : St :=
  { s with R := upd s.R s.nextR { status := .fresh }, nextR := s.nextR + 1, log := s.log ++ [.startR s.nextR] }

theorem write_eq {s : St} (h : Pl s) : s.steps [.mkW, .awaitW s.nextW true false []] =
    if s.buf.length ≠ s.cap then (newW s).resumeW s.nextW
    else match s.rq with
      | [] => (newW s).queueW s.nextW true false
      | j :: _ =>
        if (s.R j).waiting then (((newW s).giveTo s.nextW j false).handW s.nextW j).resumeR j
        else { newW s with ub := true } := by
  rw [show s.steps [.mkW, .awaitW s.nextW true false []] = (s.step .mkW).step (.awaitW s.nextW true false []) from rfl]
  have e : s.step .mkW = { s with W := upd s.W s.nextW { status := .fresh, closedF := s.closed }
                                  nextW := s.nextW + 1 } := by simp [St.step, h.ub]
  rw [e]
  have e2 : ∀ (t : St) (i : Nat), t.ub = false → t.step (.awaitW i true false []) = t.awaitW i true false [] :=
    fun t i ht => by simp [St.step, ht]
  rw [e2 _ _ (by exact h.ub), awaitW_eq, if_neg (by simp [upd_apply])]
  dsimp only
  by_cases hl : s.buf.length = s.cap
  · rw [if_neg (by simp [St.writeReady, hl, h.op, upd_apply]), if_neg (by simp [hl])]
    simp only [ite_self, List.foldl_nil]
    rfl
  · rw [if_pos (by simp [St.writeReady, hl]), if_pos hl]
    rfl

theorem read_eq {s : St} (h : Pl s) : s.steps [.mkR, .awaitR s.nextR true false []] =
    if s.buf ≠ [] then (newR s).resumeR s.nextR
    else match s.wq with
      | [] => (newR s).queueR s.nextR true false
      | j :: _ =>
        if (s.W j).waiting then (((newR s).takeFrom s.nextR j false).handR s.nextR j).resumeW j
        else { newR s with ub := true } := by
  rw [show s.steps [.mkR, .awaitR s.nextR true false []] = (s.step .mkR).step (.awaitR s.nextR true false []) from rfl]
  have e : s.step .mkR = { s with R := upd s.R s.nextR { status := .fresh }, nextR := s.nextR + 1 } := by
    simp [St.step, h.ub]
  rw [e]
  have e2 : ∀ (t : St) (i : Nat), t.ub = false → t.step (.awaitR i true false []) = t.awaitR i true false [] :=
    fun t i ht => by simp [St.step, ht]
  rw [e2 _ _ (by exact h.ub), awaitR_eq, if_neg (by simp [upd_apply])]
  dsimp only
  by_cases hl : s.buf = []
  · rw [if_neg (by simp [St.readReady, hl, h.op, upd_apply]), if_neg (by simp [hl])]
    simp only [ite_self, List.foldl_nil]
    rfl
  · rw [if_pos (by simp [St.readReady, hl]), if_pos hl]
    rfl

variable {s : St} {b : Nat} {rq wq : List Nat} {posted : List Tok} {o : Option Tok}

theorem View.push (v : View s b [] wq posted o) (hb : b < s.cap) :
    let s' := s.steps [.mkW, .awaitW s.nextW true false []]
    View s' (b + 1) [] wq posted (some (.w s.nextW)) ∧ Next s s' 0 1 := by
  have hl : s.buf.length < s.cap := by rw [v.buf]; exact hb
  have e : s.steps [.mkW, .awaitW s.nextW true false []] = { (newW s).endW s.nextW .ok with
      buf := s.buf ++ [s.nextW], asserted := s.asserted || decide (s.buf.length = s.cap) } := by
    rw [write_eq v.pl, if_pos (by omega), resumeW_eq (s := newW s) (by simp [newW, upd_apply, v.pl.op]) (by simp [newW, upd_apply])
      (by simp [newW, upd_apply]), wakeReader_nil (by exact v.rq)]
    rw [show pushBack (newW s).cap (newW s).buf s.nextW = s.buf ++ [s.nextW] from pushBack_room hl]
    rfl
  dsimp only
  have hp := pl_write v.pl (by rw [e]; exact v.pl.ub)
  rw [e] at hp ⊢
  refine ⟨⟨hp, by simp [v.buf], v.rq, v.wq, v.posted, fun i => ?_, v.dR, lastTok_w _ _ _⟩, ⟨rfl, rfl, rfl⟩⟩
  simp only [St.endW, newW, upd_apply]
  split
  · rfl
  · rename_i h; exact v.dW i

theorem View.wait (v : View s b [] wq posted o) (hb : b = s.cap) :
    let s' := s.steps [.mkW, .awaitW s.nextW true false []]
    View s' b [] (wq ++ [s.nextW]) posted none ∧ Next s s' 0 1 := by
  have hl : s.buf.length = s.cap := by rw [v.buf]; exact hb
  have e : s.steps [.mkW, .awaitW s.nextW true false []] = (newW s).queueW s.nextW true false := by
    rw [write_eq v.pl, if_neg (by omega), v.rq]
  dsimp only
  have hp := pl_write v.pl (by rw [e]; exact v.pl.ub)
  rw [e] at hp ⊢
  refine ⟨⟨hp, v.buf, v.rq, ?_, v.posted, fun i => ?_, v.dR, lastTok_sw _ _⟩, ⟨rfl, rfl, rfl⟩⟩
  · simp [St.queueW, newW, v.wq]
  simp only [St.queueW, newW, upd_apply]
  split
  · simp
  · exact v.dW i

theorem View.take (v : View s (b + 1) rq [] posted o) :
    let s' := s.steps [.mkR, .awaitR s.nextR true false []]
    View s' b rq [] posted (some (.r s.nextR)) ∧ Next s s' 1 0 := by
  obtain ⟨x, xs, hx⟩ : ∃ x xs, s.buf = x :: xs := by
    cases h : s.buf with
    | nil => have := v.buf; simp [h] at this
    | cons x xs => exact ⟨x, xs, rfl⟩
  have hlen : xs.length = b := by have := v.buf; simp [hx] at this; omega
  have e : s.steps [.mkR, .awaitR s.nextR true false []] = { (newR s).endR s.nextR (.value x) with buf := xs } := by
    rw [read_eq v.pl, if_pos (by simp [hx]), resumeR_eq (s := newR s) (b := x) (bs := xs) (by simp [newR, upd_apply])
      (by simp [newR, upd_apply]) hx, wakeWriter_nil (by exact v.wq)]
  dsimp only
  have hp := pl_read v.pl (by rw [e]; exact v.pl.ub)
  rw [e] at hp ⊢
  refine ⟨⟨hp, hlen, v.rq, v.wq, v.posted, v.dW, fun i => ?_, lastTok_r _ _ _⟩, ⟨rfl, rfl, rfl⟩⟩
  simp only [St.endR, newR, upd_apply]
  split
  · rfl
  · exact v.dR i

theorem View.takeWake {w : Nat} (v : View s (b + 1) [] (w :: wq) posted o) :
    let s' := s.steps [.mkR, .awaitR s.nextR true false []]
    View s' b [] wq (posted ++ [.w w]) (some (.r s.nextR)) ∧ Next s s' 1 0 := by
  obtain ⟨x, xs, hx⟩ : ∃ x xs, s.buf = x :: xs := by
    cases h : s.buf with
    | nil => have := v.buf; simp [h] at this
    | cons x xs => exact ⟨x, xs, rfl⟩
  have hlen : xs.length = b := by have := v.buf; simp [hx] at this; omega
  have hcap : b + 1 ≤ s.cap := by have := v.pl.wf.len; rw [v.buf] at this; exact this
  have hw : (s.W w).waiting = true := by
    have hm : w ∈ s.wq := by rw [v.wq]; simp
    rcases (v.pl.wf.wlink w hm).2.2 with h1 | h1
    · exact h1.2.1
    · have := h1.2.2; rw [v.pl.wc w] at this; cases this
  have e : s.steps [.mkR, .awaitR s.nextR true false []] =
      { ({ (newR s).endR s.nextR (.value x) with buf := xs } : St) with
        wq := wq, W := upd s.W w { s.W w with waiting := false }, posted := s.posted ++ [.w w]
        asserted := s.asserted || decide (s.rq ≠ []) } := by
    rw [read_eq v.pl, if_pos (by simp [hx]), resumeR_eq (s := newR s) (b := x) (bs := xs) (by simp [newR, upd_apply])
      (by simp [newR, upd_apply]) hx, wakeWriter_cons (i := w) (rest := wq) (by exact v.wq) (by exact hw) ?_]
    · rfl
    · have : ¬ xs.length = s.cap := by omega
      simp [St.writeReady, St.endR, newR, this]
  dsimp only
  have hp := pl_read v.pl (by rw [e]; exact v.pl.ub)
  rw [e] at hp ⊢
  refine ⟨⟨hp, hlen, v.rq, rfl, by simp [v.posted], fun i => ?_, fun i => ?_, lastTok_r _ _ _⟩, ⟨rfl, rfl, rfl⟩⟩
  · simp only [upd_apply]
    split
    · exact v.dW w
    · exact v.dW i
  · simp only [St.endR, newR, upd_apply]
    split
    · rfl
    · exact v.dR i

theorem View.sleep (v : View s 0 rq [] posted o) :
    let s' := s.steps [.mkR, .awaitR s.nextR true false []]
    View s' 0 (rq ++ [s.nextR]) [] posted none ∧ Next s s' 1 0 := by
  have hl : s.buf = [] := List.length_eq_zero_iff.1 v.buf
  have e : s.steps [.mkR, .awaitR s.nextR true false []] = (newR s).queueR s.nextR true false := by
    rw [read_eq v.pl, if_neg (by simp [hl]), v.wq]
  dsimp only
  have hp := pl_read v.pl (by rw [e]; exact v.pl.ub)
  rw [e] at hp ⊢
  refine ⟨⟨hp, v.buf, ?_, v.wq, v.posted, v.dW, fun i => ?_, lastTok_sr _ _⟩, ⟨rfl, rfl, rfl⟩⟩
  · simp [St.queueR, newR, v.rq]
  simp only [St.queueR, newR, upd_apply]
  split
  · simp
  · exact v.dR i

theorem run_w {s : St} (hu : s.ub = false) {a : Nat} {ps : List Tok} (hp : s.posted = .w a :: ps) :
    s.step (.run 0) = ({ s with posted := ps } : St).resumeW a := by
  simp [St.step, hu, St.run, hp]

theorem View.goes {a r : Nat} (v : View s b (r :: rq) [] (.w a :: posted) o) (hb : b < s.cap) :
    View (s.step (.run 0)) (b + 1) rq [] (posted ++ [.r r]) (some (.w a)) ∧ Next s (s.step (.run 0)) 0 0 := by
  have hl : s.buf.length < s.cap := by rw [v.buf]; exact hb
  have hw : (s.R r).waiting = true := by
    have hm : r ∈ s.rq := by rw [v.rq]; simp
    rcases (v.pl.wf.rlink r hm).2 with h1 | h1
    · exact h1.2.1
    · have := h1.2.2; rw [v.pl.rc r] at this; cases this
  have e : s.step (.run 0) = { ({ ({ s with posted := posted } : St).endW a .ok with
        buf := s.buf ++ [a], asserted := s.asserted || decide (s.buf.length = s.cap) } : St) with
      rq := rq, R := upd s.R r { s.R r with waiting := false }, posted := posted ++ [.r r]
      asserted := s.asserted || decide (s.buf.length = s.cap) || decide (s.wq ≠ []) } := by
    rw [run_w v.pl.ub v.posted, resumeW_eq (by exact v.pl.wcl a) (by exact v.pl.wc a) (by exact v.dW a),
      wakeReader_cons (i := r) (rest := rq) (by exact v.rq) (by exact hw) ?_]
    · rw [show pushBack ({ s with posted := posted } : St).cap ({ s with posted := posted } : St).buf a = s.buf ++ [a]
        from pushBack_room hl]
      rfl
    · simp [St.readReady, pushBack_room hl]
  have hk : 0 < s.posted.length := by rw [v.posted]; simp
  have hp : Pl (s.step (.run 0)) := by
    rcases v.pl.run hk with h1 | h1
    · rw [e] at h1; exact absurd (h1.symm.trans v.pl.ub) (by simp)
    · exact h1.1
  rw [e] at hp ⊢
  refine ⟨⟨hp, by simp [v.buf], rfl, v.wq, rfl, fun i => ?_, fun i => ?_, lastTok_w _ _ _⟩, ⟨rfl, rfl, rfl⟩⟩
  · simp only [St.endW, upd_apply]
    split
    · exact v.dW a
    · exact v.dW i
  · simp only [upd_apply]
    split
    · exact v.dR r
    · exact v.dR i

/-- A new write wakes a reader. -/
theorem View.pushWake {r : Nat} (v : View s b (r :: rq) [] posted o) (hb : b < s.cap) :
    let s' := s.steps [.mkW, .awaitW s.nextW true false []]
    View s' (b + 1) rq [] (posted ++ [.r r]) (some (.w s.nextW)) ∧ Next s s' 0 1 := by
  have hl : s.buf.length < s.cap := by rw [v.buf]; exact hb
  have hw : (s.R r).waiting = true := by
    have hm : r ∈ s.rq := by rw [v.rq]; simp
    rcases (v.pl.wf.rlink r hm).2 with h1 | h1
    · exact h1.2.1
    · have := h1.2.2; rw [v.pl.rc r] at this; cases this
  have e : s.steps [.mkW, .awaitW s.nextW true false []] = { ({ (newW s).endW s.nextW .ok with
        buf := s.buf ++ [s.nextW], asserted := s.asserted || decide (s.buf.length = s.cap) } : St) with
      rq := rq, R := upd s.R r { s.R r with waiting := false }, posted := s.posted ++ [.r r]
      asserted := s.asserted || decide (s.buf.length = s.cap) || decide (s.wq ≠ []) } := by
    rw [write_eq v.pl, if_pos (by omega), resumeW_eq (s := newW s) (by simp [newW, upd_apply, v.pl.op])
      (by simp [newW, upd_apply]) (by simp [newW, upd_apply]), wakeReader_cons (i := r) (rest := rq) (by exact v.rq)
      (by exact hw) ?_]
    · rw [show pushBack (newW s).cap (newW s).buf s.nextW = s.buf ++ [s.nextW] from pushBack_room hl]
      rfl
    · have : pushBack (newW s).cap (newW s).buf s.nextW = s.buf ++ [s.nextW] := pushBack_room hl
      simp [St.readReady, this]
  dsimp only
  have hp := pl_write v.pl (by rw [e]; exact v.pl.ub)
  rw [e] at hp ⊢
  refine ⟨⟨hp, by simp [v.buf], rfl, v.wq, by simp [v.posted], fun i => ?_, fun i => ?_, lastTok_w _ _ _⟩, ⟨rfl, rfl, rfl⟩⟩
  · simp only [St.endW, newW, upd_apply]
    split
    · rfl
    · exact v.dW i
  · simp only [upd_apply]
    split
    · exact v.dR r
    · exact v.dR i

theorem run_r {s : St} (hu : s.ub = false) {a : Nat} {ps : List Tok} (hp : s.posted = .r a :: ps) :
    s.step (.run 0) = ({ s with posted := ps } : St).resumeR a := by
  simp [St.step, hu, St.run, hp]

/-- A read that was woken takes a value. -/
theorem View.gets {a : Nat} (v : View s (b + 1) rq [] (.r a :: posted) o) :
    View (s.step (.run 0)) b rq [] posted (some (.r a)) ∧ Next s (s.step (.run 0)) 0 0 := by
  obtain ⟨x, xs, hx⟩ : ∃ x xs, s.buf = x :: xs := by
    cases h : s.buf with
    | nil => have := v.buf; simp [h] at this
    | cons x xs => exact ⟨x, xs, rfl⟩
  have hlen : xs.length = b := by have := v.buf; simp [hx] at this; omega
  have e : s.step (.run 0) = { ({ s with posted := posted } : St).endR a (.value x) with buf := xs } := by
    rw [run_r v.pl.ub v.posted, resumeR_eq (b := x) (bs := xs) (by exact v.pl.rc a) (by exact v.dR a) (by exact hx),
      wakeWriter_nil (by exact v.wq)]
  have hk : 0 < s.posted.length := by rw [v.posted]; simp
  have hp : Pl (s.step (.run 0)) := by
    rcases v.pl.run hk with h1 | h1
    · rw [e] at h1; exact absurd (h1.symm.trans v.pl.ub) (by simp)
    · exact h1.1
  rw [e] at hp ⊢
  refine ⟨⟨hp, hlen, v.rq, v.wq, rfl, v.dW, fun i => ?_, lastTok_r _ _ _⟩, ⟨rfl, rfl, rfl⟩⟩
  simp only [St.endR, upd_apply]
  split
  · exact v.dR a
  · exact v.dR i

/-- A read that was woken finds nothing. -/
theorem View.under {a : Nat} (v : View s 0 rq wq (.r a :: posted) o) : (s.step (.run 0)).ub = true := by
  have hl : s.buf = [] := List.length_eq_zero_iff.1 v.buf
  rw [run_r v.pl.ub v.posted]
  simp [St.resumeR, v.pl.op, v.pl.rc a, v.dR a, hl]

/-- A write that was woken finds the buffer full. -/
theorem View.over {a : Nat} (v : View s b rq wq (.w a :: posted) o) (hb : b = s.cap) :
    (s.step (.run 0)).asserted = true := by
  have hl : s.buf.length = s.cap := by rw [v.buf]; exact hb
  rw [run_w v.pl.ub v.posted, resumeW_eq (by exact v.pl.wcl a) (by exact v.pl.wc a) (by exact v.dW a)]
  unfold St.wakeReader
  simp only [hl, decide_true, Bool.or_true, Bool.true_or]
  split
  · rfl
  · split
    · split <;> rfl
    · rfl

end Cobalt.Chan
