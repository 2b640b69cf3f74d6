import Verif.Same.Spec
/-! Helper: a `channel<void>` does what a `channel<T>` does. -/
namespace Cobalt.Same
open Chan (upd Tok)

/-- There are at most as many values as the limit, which is a `std::size_t`. -/
structure Fit (c : Chan.St) : Prop where
  le : c.buf.length ≤ c.cap
  lt : c.cap < 2 ^ 64

theorem rop_upd (f : Nat → Chan.ROp) (i : Nat) (x : Chan.ROp) :
    (fun j => rop (upd f i x j)) = upd (fun j => rop (f j)) i (rop x) := by
  funext j; unfold upd; split <;> rfl

theorem wop_upd (f : Nat → Chan.WOp) (i : Nat) (x : Chan.WOp) :
    (fun j => wop (upd f i x j)) = upd (fun j => wop (f j)) i (wop x) := by
  funext j; unfold upd; split <;> rfl

theorem readReady_eq {c : Chan.St} (h : Fit c) : (empty c).readReady = c.readReady := by
  have := h.le; have := h.lt
  unfold VChan.St.readReady Chan.St.readReady empty
  dsimp only
  congr 1
  have e : c.buf.length % 2 ^ 64 = c.buf.length := Nat.mod_eq_of_lt (by omega)
  rw [BitVec.ult, BitVec.toNat_ofNat, BitVec.toNat_ofNat, e, Bool.eq_iff_iff]
  simp [List.length_pos_iff]

theorem writeReady_eq {c : Chan.St} (h : Fit c) : (empty c).writeReady = c.writeReady := by
  have := h.le; have := h.lt
  unfold VChan.St.writeReady Chan.St.writeReady empty
  dsimp only
  congr 1
  rw [BitVec.ult, BitVec.toNat_ofNat, BitVec.toNat_ofNat, Nat.mod_eq_of_lt (by omega), Nat.mod_eq_of_lt (by omega),
    Bool.eq_iff_iff]
  simp; omega

theorem seen_snoc (l : List Chan.Obs) (o : Chan.Obs) : seen (l ++ [o]) = seen l ++ (seen1 o).toList := by
  unfold seen
  rw [List.filterMap_append]
  cases h : seen1 o <;> simp [h]

/-- The two do the same and the channel fits. -/
def Both (c : Chan.St) (v : VChan.St) : Prop := v = empty c ∧ Fit c

theorem vwakeWriter_cons {s : VChan.St} {w : Nat} {rest : List Nat} (h : s.wq = w :: rest) :
    s.wakeWriter = if s.writeReady then
      if (s.W w).waiting then
        { s with asserted := s.asserted || decide (s.rq ≠ []), wq := rest
                 W := upd s.W w { s.W w with waiting := false }
                 posted := s.posted ++ [.w w] }
      else { s with asserted := s.asserted || decide (s.rq ≠ []), ub := true }
    else { s with asserted := s.asserted || decide (s.rq ≠ []) } := by
  unfold VChan.St.wakeWriter
  split
  · rename_i h'; rw [h'] at h; cases h
  · rename_i a b h'
    rw [h'] at h; cases h
    rfl

theorem cwakeWriter_cons {s : Chan.St} {w : Nat} {rest : List Nat} (h : s.wq = w :: rest) :
    s.wakeWriter = if s.writeReady then
      if (s.W w).waiting then
        { s with asserted := s.asserted || decide (s.rq ≠ []), wq := rest
                 W := upd s.W w { s.W w with waiting := false }
                 posted := s.posted ++ [.w w] }
      else { s with asserted := s.asserted || decide (s.rq ≠ []), ub := true }
    else { s with asserted := s.asserted || decide (s.rq ≠ []) } := by
  unfold Chan.St.wakeWriter
  split
  · rename_i h'; rw [h'] at h; cases h
  · rename_i a b h'
    rw [h'] at h; cases h
    rfl

theorem wakeWriter_both {c : Chan.St} (h : Fit c) : Both c.wakeWriter (empty c).wakeWriter := by
  cases hq : c.wq with
  | nil =>
    have e : (empty c).wq = [] := hq
    have e1 : c.wakeWriter = c := by unfold Chan.St.wakeWriter; rw [hq]
    have e2 : (empty c).wakeWriter = empty c := by unfold VChan.St.wakeWriter; rw [e]
    rw [e1, e2]; exact ⟨rfl, h⟩
  | cons w rest =>
    have e : (empty c).wq = w :: rest := hq
    have e1 : ((empty c).W w).waiting = (c.W w).waiting := rfl
    rw [vwakeWriter_cons e, cwakeWriter_cons hq, writeReady_eq h, e1]
    split
    · split
      · refine ⟨?_, h.le, h.lt⟩
        simp only [empty, wop_upd]
        rfl
      · exact ⟨rfl, h.le, h.lt⟩
    · exact ⟨rfl, h.le, h.lt⟩

theorem vwakeReader_cons {s : VChan.St} {w : Nat} {rest : List Nat} (h : s.rq = w :: rest) :
    s.wakeReader = if s.readReady then
      if (s.R w).waiting then
        { s with asserted := s.asserted || decide (s.wq ≠ []), rq := rest
                 R := upd s.R w { s.R w with waiting := false }
                 posted := s.posted ++ [.r w] }
      else { s with asserted := s.asserted || decide (s.wq ≠ []), ub := true }
    else { s with asserted := s.asserted || decide (s.wq ≠ []) } := by
  unfold VChan.St.wakeReader
  split
  · rename_i h'; rw [h'] at h; cases h
  · rename_i a b h'
    rw [h'] at h; cases h
    rfl

theorem cwakeReader_cons {s : Chan.St} {w : Nat} {rest : List Nat} (h : s.rq = w :: rest) :
    s.wakeReader = if s.readReady then
      if (s.R w).waiting then
        { s with asserted := s.asserted || decide (s.wq ≠ []), rq := rest
                 R := upd s.R w { s.R w with waiting := false }
                 posted := s.posted ++ [.r w] }
      else { s with asserted := s.asserted || decide (s.wq ≠ []), ub := true }
    else { s with asserted := s.asserted || decide (s.wq ≠ []) } := by
  unfold Chan.St.wakeReader
  split
  · rename_i h'; rw [h'] at h; cases h
  · rename_i a b h'
    rw [h'] at h; cases h
    rfl

theorem wakeReader_both {c : Chan.St} (h : Fit c) : Both c.wakeReader (empty c).wakeReader := by
  cases hq : c.rq with
  | nil =>
    have e : (empty c).rq = [] := hq
    have e1 : c.wakeReader = c := by unfold Chan.St.wakeReader; rw [hq]
    have e2 : (empty c).wakeReader = empty c := by unfold VChan.St.wakeReader; rw [e]
    rw [e1, e2]; exact ⟨rfl, h⟩
  | cons w rest =>
    have e : (empty c).rq = w :: rest := hq
    have e1 : ((empty c).R w).waiting = (c.R w).waiting := rfl
    rw [vwakeReader_cons e, cwakeReader_cons hq, readReady_eq h, e1]
    split
    · split
      · refine ⟨?_, h.le, h.lt⟩
        simp only [empty, rop_upd]
        rfl
      · exact ⟨rfl, h.le, h.lt⟩
    · exact ⟨rfl, h.le, h.lt⟩

theorem endR_eq (c : Chan.St) (i : Nat) (r : Chan.RRes) : (empty c).endR i (rres r) = empty (c.endR i r) := by
  unfold VChan.St.endR Chan.St.endR empty
  simp only [rop_upd, seen_snoc]
  rfl

theorem endW_eq (c : Chan.St) (i : Nat) (r : Chan.WRes) : (empty c).endW i (wres r) = empty (c.endW i r) := by
  unfold VChan.St.endW Chan.St.endW empty
  simp only [wop_upd, seen_snoc]
  rfl

/-! ## Nothing gets good again -/

theorem Good.wakeWriter {c : Chan.St} (h : Good c.wakeWriter) : Good c := by
  cases hq : c.wq with
  | nil =>
    have e1 : c.wakeWriter = c := by unfold Chan.St.wakeWriter; rw [hq]
    rwa [e1] at h
  | cons w rest =>
    rw [cwakeWriter_cons hq] at h
    split at h
    · split at h
      · have := h.asserted
        simp only [Bool.or_eq_false_iff] at this
        exact ⟨h.ub, this.1, h.closed⟩
      · exact absurd h.ub (by simp)
    · have := h.asserted
      simp only [Bool.or_eq_false_iff] at this
      exact ⟨h.ub, this.1, h.closed⟩

theorem Good.wakeReader {c : Chan.St} (h : Good c.wakeReader) : Good c := by
  cases hq : c.rq with
  | nil =>
    have e1 : c.wakeReader = c := by unfold Chan.St.wakeReader; rw [hq]
    rwa [e1] at h
  | cons w rest =>
    rw [cwakeReader_cons hq] at h
    split at h
    · split at h
      · have := h.asserted
        simp only [Bool.or_eq_false_iff] at this
        exact ⟨h.ub, this.1, h.closed⟩
      · exact absurd h.ub (by simp)
    · have := h.asserted
      simp only [Bool.or_eq_false_iff] at this
      exact ⟨h.ub, this.1, h.closed⟩

theorem Good.resumeR {c : Chan.St} {i : Nat} (h : Good (c.resumeR i)) : Good c := by
  unfold Chan.St.resumeR at h
  split at h
  · exact ⟨h.ub, h.asserted, h.closed⟩
  · split at h
    · exact ⟨h.ub, h.asserted, h.closed⟩
    · split at h
      · exact absurd h.ub (by simp)
      · have h := h.wakeWriter; exact ⟨h.ub, h.asserted, h.closed⟩
      · have h := h.wakeWriter; exact ⟨h.ub, h.asserted, h.closed⟩
      · have h := h.wakeWriter; exact ⟨h.ub, h.asserted, h.closed⟩

theorem Good.resumeW {c : Chan.St} {i : Nat} (h : Good (c.resumeW i)) : Good c := by
  unfold Chan.St.resumeW at h
  split at h
  · exact ⟨h.ub, h.asserted, h.closed⟩
  · split at h
    · exact ⟨h.ub, h.asserted, h.closed⟩
    · split at h
      · have h := h.wakeReader; exact ⟨h.ub, h.asserted, h.closed⟩
      · have h := h.wakeReader
        have := h.asserted
        simp only [Bool.or_eq_false_iff] at this
        exact ⟨h.ub, this.1, h.closed⟩

theorem Good.intR {c : Chan.St} {i : Nat} (h : Good (c.intR i)) : Good c := by
  unfold Chan.St.intR at h
  split at h
  · exact h
  · split at h
    · exact h
    · dsimp only at h
      split at h
      · have h := h.resumeR; exact ⟨h.ub, h.asserted, h.closed⟩
      · exact ⟨h.ub, h.asserted, h.closed⟩

theorem Good.intW {c : Chan.St} {i : Nat} (h : Good (c.intW i)) : Good c := by
  unfold Chan.St.intW at h
  split at h
  · exact h
  · split at h
    · exact h
    · dsimp only at h
      split at h
      · have h := h.resumeW; exact ⟨h.ub, h.asserted, h.closed⟩
      · exact ⟨h.ub, h.asserted, h.closed⟩

theorem Good.int {c : Chan.St} {t : Tok} (h : Good (c.int t)) : Good c := by
  cases t with
  | r i => exact Good.intR h
  | w i => exact Good.intW h

theorem Good.ints {c : Chan.St} {ts : List Tok} (h : Good (ts.foldl Chan.St.int c)) : Good c := by
  induction ts generalizing c with
  | nil => exact h
  | cons t ts ih => exact (ih h).int

/-! ## They do the same -/

theorem pushBack_length {cap x : Nat} {buf : List Nat} (h : buf.length < cap) :
    (Chan.pushBack cap buf x).length = buf.length + 1 := by
  unfold Chan.pushBack
  rw [if_neg (by omega), if_neg (by omega)]; simp

theorem resumeR_both {c : Chan.St} (f : Fit c) {i : Nat} (g : Good (c.resumeR i)) :
    Both (c.resumeR i) ((empty c).resumeR i) := by
  have g0 := g.resumeR
  have hc : (empty c).closed = false := g0.closed
  have f1 := f.le
  have f2 := f.lt
  unfold Chan.St.resumeR at g ⊢
  unfold VChan.St.resumeR
  rw [hc]
  simp only [g0.closed, Bool.false_and, Bool.false_eq_true, if_false] at g ⊢
  have e1 : ((empty c).R i).cancelled = (c.R i).cancelled := rfl
  have e2 : ((empty c).R i).direct = (c.R i).direct.isSome := rfl
  rw [e1, e2]
  by_cases h1 : (c.R i).cancelled = true
  · simp only [h1, if_true] at g ⊢
    exact ⟨endR_eq c i .aborted, f.le, f.lt⟩
  · simp only [h1] at g ⊢
    have e3 : ∀ w, (empty c).endR i .ok = empty (c.endR i (.value w)) := fun w => endR_eq c i (.value w)
    cases hb : c.buf with
    | nil =>
      cases hd : (c.R i).direct with
      | none => rw [hb, hd] at g; exact absurd g.ub (by simp)
      | some d =>
        simp only [Option.isSome_some, if_true]
        rw [e3 d]
        exact wakeWriter_both ⟨f.le, f.lt⟩
    | cons b bs =>
      rw [hb] at f1
      simp only [List.length_cons] at f1
      cases hd : (c.R i).direct with
      | none =>
        simp only [Option.isSome_none, Bool.false_eq_true, if_false]
        have e4 : ({ (empty c).endR i .ok with n := (empty c).n - 1#64 } : VChan.St) =
            empty { c.endR i (.value b) with buf := bs } := by
          rw [e3 b]
          unfold empty
          simp only [VChan.St.mk.injEq, true_and, and_true]
          show BitVec.ofNat 64 c.buf.length - 1#64 = _
          rw [hb]
          apply BitVec.eq_of_toNat_eq
          simp only [List.length_cons, BitVec.toNat_sub, BitVec.toNat_ofNat]
          omega
        rw [e4]
        exact wakeWriter_both ⟨by show bs.length ≤ c.cap; omega, f.lt⟩
      | some d =>
        simp only [Option.isSome_some, if_true]
        have hl : (Chan.pushBack c.cap bs d).length = bs.length + 1 := pushBack_length (by omega)
        have e4 : (empty c).endR i .ok = empty { c.endR i (.value b) with buf := Chan.pushBack c.cap bs d } := by
          rw [e3 b]
          unfold empty
          simp only [VChan.St.mk.injEq, true_and, and_true]
          show BitVec.ofNat 64 c.buf.length = _
          rw [hb, hl]; rfl
        rw [e4]
        exact wakeWriter_both ⟨by show (Chan.pushBack c.cap bs d).length ≤ c.cap; omega, f.lt⟩

theorem resumeW_both {c : Chan.St} (f : Fit c) {i : Nat} (g : Good (c.resumeW i)) :
    Both (c.resumeW i) ((empty c).resumeW i) := by
  have f1 := f.le
  have f2 := f.lt
  unfold Chan.St.resumeW at g ⊢
  unfold VChan.St.resumeW
  have e1 : ((empty c).W i).cancelled = (c.W i).cancelled := rfl
  have e2 : ((empty c).W i).direct = (c.W i).direct := rfl
  have e3 : ((empty c).W i).closedF = (c.W i).closedF := rfl
  have e4 : (empty c).endW i .ok = empty (c.endW i .ok) := endW_eq c i .ok
  rw [e1, e2, e3]
  split
  · exact ⟨endW_eq c i .brokenPipe, f.le, f.lt⟩
  · rename_i h1
    rw [if_neg h1] at g
    split
    · exact ⟨endW_eq c i .aborted, f.le, f.lt⟩
    · rename_i h2
      rw [if_neg h2] at g
      split
      · rw [e4]; exact wakeReader_both ⟨f.le, f.lt⟩
      · rename_i h3
        rw [if_neg h3] at g
        have hn := g.wakeReader.asserted
        simp only [Bool.or_eq_false_iff, decide_eq_false_iff_not] at hn
        have hlt : c.buf.length < c.cap := by omega
        have hl : (Chan.pushBack c.cap c.buf i).length = c.buf.length + 1 := pushBack_length hlt
        have e5 : ({ (empty c).endW i .ok with n := (empty c).n + 1#64 } : VChan.St) =
            empty { c.endW i .ok with
              buf := Chan.pushBack c.cap c.buf i
              asserted := c.asserted || decide (c.buf.length = c.cap) } := by
          rw [e4]
          unfold empty
          simp only [VChan.St.mk.injEq, true_and, and_true]
          refine ⟨?_, ?_⟩
          · show BitVec.ofNat 64 c.buf.length + 1#64 = _
            rw [hl, BitVec.ofNat_add]
          · show c.asserted = _
            simp [hn.2]
        rw [e5]
        exact wakeReader_both ⟨by show (Chan.pushBack c.cap c.buf i).length ≤ c.cap; omega, f.lt⟩

theorem intR_both {c : Chan.St} (f : Fit c) {i : Nat} (g : Good (c.intR i)) : Both (c.intR i) ((empty c).intR i) := by
  have e1 : ((empty c).R i).status = (c.R i).status := rfl
  have e2 : ((empty c).R i).direct = (c.R i).direct.isSome := rfl
  have e3 : ((empty c).R i).waiting = (c.R i).waiting := rfl
  have e4 : ({ empty c with R := upd (empty c).R i { (empty c).R i with cancelled := true } } : VChan.St) =
      empty { c with R := upd c.R i { c.R i with cancelled := true } } := by
    unfold empty
    simp only [rop_upd]; rfl
  have e5 : (empty c).intR i = if (c.R i).status = .absent ∨ (c.R i).status = .gone then empty c
      else if (c.R i).direct.isSome then empty c
      else if (c.R i).waiting then (empty { c with R := upd c.R i { c.R i with cancelled := true } }).resumeR i
      else empty { c with R := upd c.R i { c.R i with cancelled := true } } := by
    rw [← e4, ← e1, ← e2, ← e3]; rfl
  rw [e5]
  unfold Chan.St.intR at g ⊢
  split
  · exact ⟨rfl, f⟩
  · rename_i h1
    rw [if_neg h1] at g
    split
    · exact ⟨rfl, f⟩
    · rename_i h2
      rw [if_neg h2] at g
      dsimp only at g ⊢
      split
      · rename_i h3
        rw [if_pos h3] at g
        exact resumeR_both (c := { c with R := upd c.R i { c.R i with cancelled := true } }) ⟨f.le, f.lt⟩ g
      · exact ⟨rfl, f.le, f.lt⟩

theorem intW_both {c : Chan.St} (f : Fit c) {i : Nat} (g : Good (c.intW i)) : Both (c.intW i) ((empty c).intW i) := by
  have e1 : ((empty c).W i).status = (c.W i).status := rfl
  have e2 : ((empty c).W i).direct = (c.W i).direct := rfl
  have e3 : ((empty c).W i).waiting = (c.W i).waiting := rfl
  have e4 : ({ empty c with W := upd (empty c).W i { (empty c).W i with cancelled := true } } : VChan.St) =
      empty { c with W := upd c.W i { c.W i with cancelled := true } } := by
    unfold empty
    simp only [wop_upd]; rfl
  have e5 : (empty c).intW i = if (c.W i).status = .absent ∨ (c.W i).status = .gone then empty c
      else if (c.W i).direct then empty c
      else if (c.W i).waiting then (empty { c with W := upd c.W i { c.W i with cancelled := true } }).resumeW i
      else empty { c with W := upd c.W i { c.W i with cancelled := true } } := by
    rw [← e4, ← e1, ← e2, ← e3]; rfl
  rw [e5]
  unfold Chan.St.intW at g ⊢
  split
  · exact ⟨rfl, f⟩
  · rename_i h1
    rw [if_neg h1] at g
    split
    · exact ⟨rfl, f⟩
    · rename_i h2
      rw [if_neg h2] at g
      dsimp only at g ⊢
      split
      · rename_i h3
        rw [if_pos h3] at g
        exact resumeW_both (c := { c with W := upd c.W i { c.W i with cancelled := true } }) ⟨f.le, f.lt⟩ g
      · exact ⟨rfl, f.le, f.lt⟩

theorem ints_both {c : Chan.St} (f : Fit c) (ts : List Tok) (g : Good (ts.foldl Chan.St.int c)) :
    Both (ts.foldl Chan.St.int c) (ts.foldl VChan.St.int (empty c)) := by
  induction ts generalizing c with
  | nil => exact ⟨rfl, f⟩
  | cons t ts ih =>
    rw [List.foldl_cons] at g ⊢
    rw [List.foldl_cons]
    have h : Both (c.int t) ((empty c).int t) := by
      cases t with
      | r i => exact intR_both f g.ints
      | w i => exact intW_both f g.ints
    rw [h.1]
    exact ih h.2 g

/-- `St.awaitR` after the beginning of the operation was recorded. -/
def goR (s : Chan.St) (i : Nat) (conn txn : Bool) (hits : List Tok) : Chan.St :=
  if s.readReady then s.resumeR i
  else if (s.R i).cancelled then s.resumeR i
  else match s.wq with
    | [] => s.queueR i conn txn
    | w :: _ =>
      if (s.W w).waiting then
        let s := s.takeFrom i w txn
        let s := if (s.W w).txn then hits.foldl Chan.St.int s else s
        (s.handR i w).resumeW w
      else { s with ub := true }

theorem awaitR_go {c : Chan.St} {i : Nat} (h1 : ¬ (c.R i).status ≠ .fresh) (conn txn : Bool) (hits : List Tok) :
    c.awaitR i conn txn hits = goR { c with log := c.log ++ [Chan.Obs.startR i] } i conn txn hits := by
  unfold Chan.St.awaitR
  rw [if_neg h1]
  rfl

theorem awaitR_both {c : Chan.St} (f : Fit c) {i : Nat} {conn txn : Bool} {hits : List Tok}
    (g : Good (c.awaitR i conn txn hits)) :
    Both (c.awaitR i conn txn hits) ((empty c).awaitR i conn txn hits) := by
  have e1 : ((empty c).R i).status = (c.R i).status := rfl
  by_cases h1 : (c.R i).status ≠ .fresh
  · unfold Chan.St.awaitR VChan.St.awaitR
    rw [e1, if_pos h1, if_pos h1]; exact ⟨rfl, f⟩
  · rw [awaitR_go h1] at g ⊢
    unfold VChan.St.awaitR
    rw [e1, if_neg h1]
    have e0 : empty c = empty { c with log := c.log ++ [Chan.Obs.startR i] } := by
      unfold empty
      simp only [seen_snoc, VChan.St.mk.injEq, true_and, and_true]
      simp [seen1]
    rw [e0]
    have f' : Fit { c with log := c.log ++ [Chan.Obs.startR i] } := ⟨f.le, f.lt⟩
    generalize { c with log := c.log ++ [Chan.Obs.startR i] } = d at *
    unfold goR at g ⊢
    rw [readReady_eq f']
    split
    · rename_i h2
      rw [if_pos h2] at g
      exact resumeR_both f' g
    · rename_i h2
      rw [if_neg h2] at g
      have e2 : ((empty d).R i).cancelled = (d.R i).cancelled := rfl
      rw [e2]
      split
      · rename_i h3
        rw [if_pos h3] at g
        exact resumeR_both f' g
      · rename_i h3
        rw [if_neg h3] at g
        have e3 : (empty d).wq = d.wq := rfl
        rw [e3]
        cases hq : d.wq with
        | nil =>
          refine ⟨?_, f'.le, f'.lt⟩
          unfold VChan.St.queueR Chan.St.queueR empty
          simp only [rop_upd]; rfl
        | cons w rest =>
          rw [hq] at g
          dsimp only at g ⊢
          have e4 : ((empty d).W w).waiting = (d.W w).waiting := rfl
          rw [e4]
          split
          · rename_i h4
            rw [if_pos h4] at g
            have e5 : (empty d).takeFrom i w txn = empty (d.takeFrom i w txn) := by
              unfold VChan.St.takeFrom Chan.St.takeFrom empty
              simp only [rop_upd, wop_upd]; rfl
            have f5 : Fit (d.takeFrom i w txn) := ⟨f'.le, f'.lt⟩
            rw [e5]
            generalize d.takeFrom i w txn = d1 at *
            have e6 : ((empty d1).W w).txn = (d1.W w).txn := rfl
            rw [e6]
            have gi := g.resumeW
            have hand : ∀ x : Chan.St, (empty x).handR i w = empty (x.handR i w) := by
              intro x
              unfold VChan.St.handR Chan.St.handR empty
              simp only [rop_upd, wop_upd]; rfl
            split
            · rename_i h5
              rw [if_pos h5] at g gi
              have gi' : Good (hits.foldl Chan.St.int d1) := ⟨gi.ub, gi.asserted, gi.closed⟩
              have hb := ints_both f5 hits gi'
              rw [hb.1, hand]
              exact resumeW_both (c := (hits.foldl Chan.St.int d1).handR i w) ⟨hb.2.le, hb.2.lt⟩ g
            · rename_i h5
              rw [if_neg h5] at g
              rw [hand]
              exact resumeW_both (c := d1.handR i w) ⟨f5.le, f5.lt⟩ g
          · exact ⟨rfl, f'.le, f'.lt⟩

/-- `St.awaitW` after the beginning of the operation was recorded. -/
def goW (s : Chan.St) (i : Nat) (conn txn : Bool) (hits : List Tok) : Chan.St :=
  if s.writeReady then s.resumeW i
  else if (s.W i).cancelled then s.resumeW i
  else match s.rq with
    | [] => s.queueW i conn txn
    | w :: _ =>
      if (s.R w).waiting then
        let s := s.giveTo i w txn
        let s := if (s.R w).txn then hits.foldl Chan.St.int s else s
        (s.handW i w).resumeR w
      else { s with ub := true }

theorem awaitW_go {c : Chan.St} {i : Nat} (h1 : ¬ (c.W i).status ≠ .fresh) (conn txn : Bool) (hits : List Tok) :
    c.awaitW i conn txn hits = goW { c with log := c.log ++ [Chan.Obs.startW i] } i conn txn hits := by
  unfold Chan.St.awaitW
  rw [if_neg h1]
  rfl

theorem awaitW_both {c : Chan.St} (f : Fit c) {i : Nat} {conn txn : Bool} {hits : List Tok}
    (g : Good (c.awaitW i conn txn hits)) :
    Both (c.awaitW i conn txn hits) ((empty c).awaitW i conn txn hits) := by
  have e1 : ((empty c).W i).status = (c.W i).status := rfl
  by_cases h1 : (c.W i).status ≠ .fresh
  · unfold Chan.St.awaitW VChan.St.awaitW
    rw [e1, if_pos h1, if_pos h1]; exact ⟨rfl, f⟩
  · rw [awaitW_go h1] at g ⊢
    unfold VChan.St.awaitW
    rw [e1, if_neg h1]
    have e0 : empty c = empty { c with log := c.log ++ [Chan.Obs.startW i] } := by
      unfold empty
      simp only [seen_snoc, VChan.St.mk.injEq, true_and, and_true]
      simp [seen1]
    rw [e0]
    have f' : Fit { c with log := c.log ++ [Chan.Obs.startW i] } := ⟨f.le, f.lt⟩
    generalize { c with log := c.log ++ [Chan.Obs.startW i] } = d at *
    unfold goW at g ⊢
    rw [writeReady_eq f']
    split
    · rename_i h2
      rw [if_pos h2] at g
      exact resumeW_both f' g
    · rename_i h2
      rw [if_neg h2] at g
      have e2 : ((empty d).W i).cancelled = (d.W i).cancelled := rfl
      rw [e2]
      split
      · rename_i h3
        rw [if_pos h3] at g
        exact resumeW_both f' g
      · rename_i h3
        rw [if_neg h3] at g
        have e3 : (empty d).rq = d.rq := rfl
        rw [e3]
        cases hq : d.rq with
        | nil =>
          refine ⟨?_, f'.le, f'.lt⟩
          unfold VChan.St.queueW Chan.St.queueW empty
          simp only [wop_upd]; rfl
        | cons j rest =>
          rw [hq] at g
          dsimp only at g ⊢
          have e4 : ((empty d).R j).waiting = (d.R j).waiting := rfl
          rw [e4]
          split
          · rename_i h4
            rw [if_pos h4] at g
            have e5 : (empty d).giveTo i j txn = empty (d.giveTo i j txn) := by
              unfold VChan.St.giveTo Chan.St.giveTo empty
              simp only [rop_upd, wop_upd]; rfl
            have f5 : Fit (d.giveTo i j txn) := ⟨f'.le, f'.lt⟩
            rw [e5]
            generalize d.giveTo i j txn = d1 at *
            have e6 : ((empty d1).R j).txn = (d1.R j).txn := rfl
            rw [e6]
            have gi := g.resumeR
            have hand : ∀ x : Chan.St, (empty x).handW i j = empty (x.handW i j) := by
              intro x
              unfold VChan.St.handW Chan.St.handW empty
              simp only [rop_upd, wop_upd]; rfl
            split
            · rename_i h5
              rw [if_pos h5] at g gi
              have gi' : Good (hits.foldl Chan.St.int d1) := ⟨gi.ub, gi.asserted, gi.closed⟩
              have hb := ints_both f5 hits gi'
              rw [hb.1, hand]
              exact resumeR_both (c := (hits.foldl Chan.St.int d1).handW i j) ⟨hb.2.le, hb.2.lt⟩ g
            · rename_i h5
              rw [if_neg h5] at g
              rw [hand]
              exact resumeR_both (c := d1.handW i j) ⟨f5.le, f5.lt⟩ g
          · exact ⟨rfl, f'.le, f'.lt⟩

theorem run_both {c : Chan.St} (f : Fit c) {k : Nat} (g : Good (c.run k)) : Both (c.run k) ((empty c).run k) := by
  unfold Chan.St.run at g ⊢
  unfold VChan.St.run
  have e : (empty c).posted = c.posted := rfl
  rw [e]
  cases h : c.posted[k]? with
  | none => exact ⟨rfl, f⟩
  | some t =>
    rw [h] at g
    cases t with
    | r i => exact resumeR_both (c := { c with posted := c.posted.eraseIdx k }) ⟨f.le, f.lt⟩ g
    | w i => exact resumeW_both (c := { c with posted := c.posted.eraseIdx k }) ⟨f.le, f.lt⟩ g

theorem step_both {c : Chan.St} (f : Fit c) {e : Chan.Ev} (g : Good (c.step e)) :
    Both (c.step e) ((empty c).step (ev e)) := by
  unfold Chan.St.step at g ⊢
  unfold VChan.St.step
  have eu : (empty c).ub = c.ub := rfl
  rw [eu]
  by_cases hu : c.ub = true
  · rw [if_pos hu, if_pos hu]; exact ⟨rfl, f⟩
  · rw [if_neg hu] at g ⊢
    rw [if_neg hu]
    cases e with
    | mkR =>
      refine ⟨?_, f.le, f.lt⟩
      unfold empty; simp only [ev, rop_upd]; rfl
    | mkW =>
      refine ⟨?_, f.le, f.lt⟩
      unfold empty; simp only [ev, wop_upd]; rfl
    | awaitR i conn txn hits => exact awaitR_both f g
    | awaitW i conn txn hits => exact awaitW_both f g
    | run k => exact run_both f g
    | cancelR i =>
      show Both (c.cancelR i) ((empty c).cancelR i)
      unfold Chan.St.cancelR VChan.St.cancelR
      have e1 : ((empty c).R i).slot = (c.R i).slot := rfl
      rw [e1]
      split
      · refine ⟨?_, f.le, f.lt⟩
        unfold empty; simp only [rop_upd]; rfl
      · exact ⟨rfl, f⟩
    | cancelW i =>
      show Both (c.cancelW i) ((empty c).cancelW i)
      unfold Chan.St.cancelW VChan.St.cancelW
      have e1 : ((empty c).W i).slot = (c.W i).slot := rfl
      rw [e1]
      split
      · refine ⟨?_, f.le, f.lt⟩
        unfold empty; simp only [wop_upd]; rfl
      · exact ⟨rfl, f⟩
    | intR i => exact intR_both f g
    | intW i => exact intW_both f g
    | dropR i =>
      show Both (c.dropR i) ((empty c).dropR i)
      unfold Chan.St.dropR VChan.St.dropR
      have e1 : ((empty c).R i).status = (c.R i).status := rfl
      rw [e1]
      split
      · refine ⟨?_, f.le, f.lt⟩
        unfold empty; simp only [rop_upd]; rfl
      · exact ⟨rfl, f⟩
    | dropW i =>
      show Both (c.dropW i) ((empty c).dropW i)
      unfold Chan.St.dropW VChan.St.dropW
      have e1 : ((empty c).W i).status = (c.W i).status := rfl
      rw [e1]
      split
      · refine ⟨?_, f.le, f.lt⟩
        unfold empty; simp only [wop_upd]; rfl
      · exact ⟨rfl, f⟩
    | close => exact absurd g.closed (by simp [Chan.St.close])

end Cobalt.Same
