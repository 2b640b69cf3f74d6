import Verif.VChan.WakeLateSpec
import Verif.VChan.WakeStep
/-!
# Lemmas: running what is posted changes nothing about who is left asleep
-/
namespace Cobalt.VChan

open Chan (Status Tok upd countP_eq countP_eraseIdx)

theorem sleepR_nil {s : St} (h : s.rq = []) : ¬ SleepR s := by
  rintro ⟨⟨i, hi, _⟩, _⟩; rw [h] at hi; simp at hi

theorem sleepW_nil {s : St} (h : s.wq = []) : ¬ SleepW s := by
  rintro ⟨⟨i, hi, _⟩, _⟩; rw [h] at hi; simp at hi

theorem wakeWriter_rq (s : St) : s.wakeWriter.rq = s.rq := by
  unfold St.wakeWriter
  split
  · rfl
  · dsimp only; split
    · split <;> rfl
    · rfl

theorem wakeReader_wq (s : St) : s.wakeReader.wq = s.wq := by
  unfold St.wakeReader
  split
  · rfl
  · dsimp only; split
    · split <;> rfl
    · rfl

theorem sleepR_wakeWriter {s : St} (h : WF s none) : SleepR s.wakeWriter ↔ SleepR s := by
  rcases h.excl with e | e
  · exact ⟨fun x => absurd x (sleepR_nil ((wakeWriter_rq s).trans e)), fun x => absurd x (sleepR_nil e)⟩
  · have : s.wakeWriter = s := by unfold St.wakeWriter; rw [e]
    rw [this]

theorem sleepW_wakeReader {s : St} (h : WF s none) : SleepW s.wakeReader ↔ SleepW s := by
  rcases h.excl with e | e
  · have : s.wakeReader = s := by unfold St.wakeReader; rw [e]
    rw [this]
  · exact ⟨fun x => absurd x (sleepW_nil ((wakeReader_wq s).trans e)), fun x => absurd x (sleepW_nil e)⟩

theorem sleepR_wakeReader {s : St} (h : WF s none) (hu : s.wakeReader.ub = false) : SleepR s.wakeReader ↔
    (∃ i ∈ s.rq.drop (s.posted.countP s.givesW + 1), (s.R i).status = .susp) ∧
    s.posted.countP s.handedW + s.posted.countP s.takes + 1 < s.n.toNat := by
  rcases hq : s.rq with _ | ⟨j, rest⟩
  · have : s.wakeReader = s := by unfold St.wakeReader; rw [hq]
    rw [this]
    exact ⟨fun x => absurd x (sleepR_nil hq), fun x => by simp at x⟩
  · have hc : s.closed = false := by
      rcases hc : s.closed with _ | _
      · rfl
      · have := (h.closedQ hc).1; rw [hq] at this; cases this
    by_cases hn : s.n.toNat = 0
    · refine ⟨fun x => ?_, fun x => ?_⟩
      · have := x.2; rw [wakeReader_n, hn] at this; omega
      · have := x.2; omega
    · have hr : s.readReady = true := by
        have : BitVec.ult 0#64 s.n = true := by simp [BitVec.ult]; omega
        simp [St.readReady, this]
      have hr' : St.readReady { s with asserted := s.asserted || decide (s.wq ≠ []) } = true := hr
      rw [hq] at hr'
      have hl := h.rlink j (by simp [hq])
      have hw : (s.R j).waiting = true := by
        rcases hw : (s.R j).waiting with _ | _
        · unfold St.wakeReader at hu
          rw [hq] at hu
          dsimp only at hu
          rw [if_pos hr', hw] at hu
          simp at hu
        · rfl
      have hca : (s.R j).cancelled = false := by
        rcases hl.2 with x | x
        · exact x.2.2
        · rw [hw] at x; simp at x
      have e : s.wakeReader = { s with
          asserted := s.asserted || decide (s.wq ≠ []), rq := rest
          R := upd s.R j { s.R j with waiting := false }, posted := s.posted ++ [.r j] } := by
        unfold St.wakeReader
        rw [hq]
        dsimp only
        rw [if_pos hr', if_pos hw]
      have e1 : s.wakeReader.givesW = s.givesW := by rw [e]; rfl
      have e2 : s.wakeReader.handedW = s.handedW := by rw [e]; rfl
      have e3 : s.wakeReader.takes = s.takes := by
        rw [e]; funext t; cases t
        · simp only [St.takes, upd]; split
          · rename_i x; subst x; rfl
          · rfl
        · rfl
      have e4 : ∀ i, (s.wakeReader.R i).status = (s.R i).status := fun i => by
        rw [e]; simp only [upd]; split
        · rename_i x; subst x; rfl
        · rfl
      have e5 : s.wakeReader.posted = s.posted ++ [.r j] := by rw [e]
      have e6 : s.wakeReader.rq = rest := by rw [e]
      have t1 : s.takes (.r j) = true := by simp [St.takes, hl.1, hca]
      simp only [SleepR, e1, e2, e3, e4, e5, e6, wakeReader_n, List.countP_append, List.countP_singleton, t1,
        St.givesW, St.handedW, List.drop_succ_cons]
      simp only [Bool.false_eq_true, if_false, if_true, Nat.add_zero, ← Nat.add_assoc]

theorem sleepW_wakeWriter {s : St} (h : WF s none) (hu : s.wakeWriter.ub = false) : SleepW s.wakeWriter ↔
    (∃ i ∈ s.wq.drop (s.posted.countP s.givesR + 1), (s.W i).status = .susp) ∧
    s.n.toNat + (s.posted.countP s.handedR + s.posted.countP s.puts + 1) < s.limit.toNat := by
  have hlim : s.wakeWriter.limit = s.limit := by
    unfold St.wakeWriter
    split
    · rfl
    · dsimp only; split
      · split <;> rfl
      · rfl
  rcases hq : s.wq with _ | ⟨j, rest⟩
  · have : s.wakeWriter = s := by unfold St.wakeWriter; rw [hq]
    rw [this]
    exact ⟨fun x => absurd x (sleepW_nil hq), fun x => by simp at x⟩
  · by_cases hn : s.limit.toNat ≤ s.n.toNat
    · refine ⟨fun x => ?_, fun x => ?_⟩
      · have := x.2; rw [wakeWriter_n, hlim] at this; omega
      · have := x.2; omega
    · have hr : s.writeReady = true := by
        have : BitVec.ult s.n s.limit = true := by simp [BitVec.ult]; omega
        simp [St.writeReady, this]
      have hr' : St.writeReady { s with asserted := s.asserted || decide (s.rq ≠ []) } = true := hr
      rw [hq] at hr'
      have hl := h.wlink j (by simp [hq])
      have hw : (s.W j).waiting = true := by
        rcases hw : (s.W j).waiting with _ | _
        · unfold St.wakeWriter at hu
          rw [hq] at hu
          dsimp only at hu
          rw [if_pos hr', hw] at hu
          simp at hu
        · rfl
      have hca : (s.W j).cancelled = false := by
        rcases hl.2.2 with x | x
        · exact x.2.2
        · rw [hw] at x; simp at x
      have e : s.wakeWriter = { s with
          asserted := s.asserted || decide (s.rq ≠ []), wq := rest
          W := upd s.W j { s.W j with waiting := false }, posted := s.posted ++ [.w j] } := by
        unfold St.wakeWriter
        rw [hq]
        dsimp only
        rw [if_pos hr', if_pos hw]
      have e1 : s.wakeWriter.givesR = s.givesR := by rw [e]; rfl
      have e2 : s.wakeWriter.handedR = s.handedR := by rw [e]; rfl
      have e3 : s.wakeWriter.puts = s.puts := by
        rw [e]; funext t; cases t
        · rfl
        · simp only [St.puts, upd]; split
          · rename_i x; subst x; rfl
          · rfl
      have e4 : ∀ i, (s.wakeWriter.W i).status = (s.W i).status := fun i => by
        rw [e]; simp only [upd]; split
        · rename_i x; subst x; rfl
        · rfl
      have e5 : s.wakeWriter.posted = s.posted ++ [.w j] := by rw [e]
      have e6 : s.wakeWriter.wq = rest := by rw [e]
      have t1 : s.puts (.w j) = true := by simp [St.puts, hl.1, hca]
      simp only [SleepW, e1, e2, e3, e4, e5, e6, wakeWriter_n, hlim, List.countP_append, List.countP_singleton, t1,
        St.givesR, St.handedR, List.drop_succ_cons]
      simp only [Bool.false_eq_true, if_false, if_true, Nat.add_zero, ← Nat.add_assoc]

theorem givesW_endW (s : St) (i : Nat) (r : Res) : (s.endW i r).givesW = s.givesW := by
  funext t; cases t
  · rfl
  · simp only [St.givesW, St.endW, upd]; split
    · rename_i x; subst x; rfl
    · rfl

theorem handedW_endW (s : St) (i : Nat) (r : Res) : (s.endW i r).handedW = s.handedW := by
  funext t; cases t
  · rfl
  · simp only [St.handedW, St.endW, upd]; split
    · rename_i x; subst x; rfl
    · rfl

theorem givesR_endR (s : St) (i : Nat) (r : Res) : (s.endR i r).givesR = s.givesR := by
  funext t; cases t
  · simp only [St.givesR, St.endR, upd]; split
    · rename_i x; subst x; rfl
    · rfl
  · rfl

theorem handedR_endR (s : St) (i : Nat) (r : Res) : (s.endR i r).handedR = s.handedR := by
  funext t; cases t
  · simp only [St.handedR, St.endR, upd]; split
    · rename_i x; subst x; rfl
    · rfl
  · rfl

theorem runW_sleepR {s : St} {i k : Nat} (h : WF s none) (hk : s.posted[k]? = some (.w i))
    (hu : (St.resumeW { s with posted := s.posted.eraseIdx k } i).ub = false)
    (hz : s.n.toNat ≤ (St.resumeW { s with posted := s.posted.eraseIdx k } i).n.toNat + 1) :
    SleepR (St.resumeW { s with posted := s.posted.eraseIdx k } i) ↔ SleepR s := by
  have c1 := countP_eraseIdx s.givesW _ _ _ hk
  have c2 := countP_eraseIdx s.handedW _ _ _ hk
  have c3 := countP_eraseIdx s.takes _ _ _ hk
  have h1 := h.unpost hk
  generalize hs : { s with posted := s.posted.eraseIdx k } = s1 at hu hz h1 ⊢
  have f1 : s1.givesW = s.givesW := by rw [← hs]; rfl
  have f2 : s1.handedW = s.handedW := by rw [← hs]; rfl
  have f3 : s1.takes = s.takes := by rw [← hs]; rfl
  have f4 : s1.posted = s.posted.eraseIdx k := by rw [← hs]
  have f5 : s1.n = s.n := by rw [← hs]
  have f6 : s1.R = s.R := by rw [← hs]
  have f7 : s1.rq = s.rq := by rw [← hs]
  have f8 : s1.W = s.W := by rw [← hs]
  rw [← f1, ← f4] at c1
  rw [← f2, ← f4] at c2
  rw [← f3, ← f4] at c3
  have t3 : s1.takes (.w i) = false := rfl
  rw [t3] at c3
  have goal' : SleepR s ↔ (∃ j ∈ s1.rq.drop (s.posted.countP s1.givesW), (s1.R j).status = .susp) ∧
      s.posted.countP s1.handedW + s.posted.countP s1.takes < s1.n.toNat := by
    rw [f1, f2, f3, f5, f6, f7]; rfl
  rw [goal', c1, c2, c3]
  rw [← f5] at hz
  clear goal' c1 c2 c3 f1 f2 f3 f4 f5 f6 f7 f8 hs
  revert hu hz
  unfold St.resumeW
  split
  · rename_i hc
    intro _ _
    have hq := (h1.closedQ (h1.wclosed i hc)).1
    refine ⟨fun x => absurd x (sleepR_nil hq), fun x => ?_⟩
    rw [hq] at x; simp at x
  · rename_i hc
    split
    · rename_i ha
      intro _ _
      have hd : (s1.W i).direct = false := by
        rcases hd : (s1.W i).direct with _ | _
        · rfl
        · have := (h1.wdir i hd).1; rw [ha] at this; cases this
      have t1 : s1.givesW (.w i) = false := by simp [St.givesW, ha]
      have t2 : s1.handedW (.w i) = false := by simp [St.handedW, hd]
      simp only [SleepR, givesW_endW, handedW_endW]
      rw [t1, t2]
      simp only [Bool.false_eq_true, if_false, Nat.add_zero]
      exact Iff.rfl
    · rename_i ha
      have t1 : s1.givesW (.w i) = true := by simp [St.givesW, ha, hc]
      rw [t1]
      split
      · rename_i hd
        intro hu _
        have t2 : s1.handedW (.w i) = true := by simp [St.handedW, hd]
        rw [sleepR_wakeReader (h1.endW _) hu, givesW_endW, handedW_endW, t2]
        show (_ ∧ s1.posted.countP s1.handedW + s1.posted.countP s1.takes + 1 < s1.n.toNat) ↔ _
        simp only [if_true, Bool.false_eq_true, if_false, Nat.add_zero]
        rw [show s1.posted.countP s1.handedW + s1.posted.countP s1.takes + 1 =
          s1.posted.countP s1.handedW + 1 + s1.posted.countP s1.takes by omega]
        exact Iff.rfl
      · rename_i hd
        intro hu hz
        rw [wakeReader_n] at hz
        have hz : s1.n.toNat ≤ (s1.n + 1#64).toNat + 1 := hz
        have t2 : s1.handedW (.w i) = false := by simp [St.handedW, hd]
        rw [t2]
        by_cases ho : s1.n.toNat + 1 < 2 ^ 64
        · have hn := add_one_toNat ho
          have hg := givesW_endW s1 i .ok
          have hh := handedW_endW s1 i .ok
          rw [sleepR_wakeReader ((h1.endW _).setN _) hu]
          show ((∃ j ∈ s1.rq.drop (s1.posted.countP (s1.endW i .ok).givesW + 1), (s1.R j).status = .susp) ∧
            s1.posted.countP (s1.endW i .ok).handedW + s1.posted.countP s1.takes + 1 < (s1.n + 1#64).toNat) ↔ _
          rw [hg, hh, hn]
          simp only [if_true, Bool.false_eq_true, if_false, Nat.add_zero, Nat.add_lt_add_iff_right]
        · exfalso
          rw [BitVec.toNat_add] at hz
          have := s1.n.isLt
          simp only [BitVec.toNat_ofNat] at hz
          omega

theorem runR_sleepR {s : St} {i k : Nat} (h : WF s none) (hk : s.posted[k]? = some (.r i))
    (hz : (St.resumeR { s with posted := s.posted.eraseIdx k } i).n.toNat ≤ s.n.toNat + 1) :
    SleepR (St.resumeR { s with posted := s.posted.eraseIdx k } i) ↔ SleepR s := by
  have c1 := countP_eraseIdx s.givesW _ _ _ hk
  have c2 := countP_eraseIdx s.handedW _ _ _ hk
  have c3 := countP_eraseIdx s.takes _ _ _ hk
  have h1 := h.unpost hk
  generalize hs : { s with posted := s.posted.eraseIdx k } = s1 at hz h1 ⊢
  have f1 : s1.givesW = s.givesW := by rw [← hs]; rfl
  have f2 : s1.handedW = s.handedW := by rw [← hs]; rfl
  have f3 : s1.takes = s.takes := by rw [← hs]; rfl
  have f4 : s1.posted = s.posted.eraseIdx k := by rw [← hs]
  have f5 : s1.n = s.n := by rw [← hs]
  have f6 : s1.R = s.R := by rw [← hs]
  have f7 : s1.rq = s.rq := by rw [← hs]
  rw [← f1, ← f4] at c1
  rw [← f2, ← f4] at c2
  rw [← f3, ← f4] at c3
  have t1 : s1.givesW (.r i) = false := rfl
  have t2 : s1.handedW (.r i) = false := rfl
  rw [t1] at c1
  rw [t2] at c2
  have goal' : SleepR s ↔ (∃ j ∈ s1.rq.drop (s.posted.countP s1.givesW), (s1.R j).status = .susp) ∧
      s.posted.countP s1.handedW + s.posted.countP s1.takes < s1.n.toNat := by
    rw [f1, f2, f3, f5, f6, f7]; rfl
  rw [goal', c1, c2, c3]
  rw [← f5] at hz
  clear goal' c1 c2 c3 f1 f2 f3 f4 f5 f6 f7 hs
  simp only [Bool.false_eq_true, if_false, Nat.add_zero]
  have hi : i ∉ s1.rq := (h1.rcur i rfl).2.2
  have hst : ∀ (r : Res) (m : Nat), (∃ j ∈ s1.rq.drop m, ((s1.endR i r).R j).status = .susp) ↔
      (∃ j ∈ s1.rq.drop m, (s1.R j).status = .susp) := fun r m => by
    constructor
    · rintro ⟨j, hj, hs⟩
      refine ⟨j, hj, ?_⟩
      have : j ≠ i := fun e => hi (e ▸ List.mem_of_mem_drop hj)
      simpa [St.endR, upd, this] using hs
    · rintro ⟨j, hj, hs⟩
      refine ⟨j, hj, ?_⟩
      have : j ≠ i := fun e => hi (e ▸ List.mem_of_mem_drop hj)
      simpa [St.endR, upd, this] using hs
  have hend : ∀ r : Res, SleepR (s1.endR i r) ↔ ((∃ j ∈ s1.rq.drop (s1.posted.countP s1.givesW), (s1.R j).status = .susp) ∧
      s1.posted.countP s1.handedW + s1.posted.countP s1.takes < s1.n.toNat) := fun r => by
    rw [← hst r]
    unfold SleepR
    rw [takes_endR]
    exact Iff.rfl
  revert hz
  unfold St.resumeR
  split
  · rename_i hc
    intro _
    have hq := (h1.closedQ hc).1
    refine ⟨fun x => absurd x (sleepR_nil hq), fun x => ?_⟩
    rw [hq] at x; simp at x
  · split
    · rename_i ha
      intro _
      have t3 : s1.takes (.r i) = false := by simp [St.takes, ha]
      rw [hend, t3]
      simp
    · rename_i ha
      split
      · rename_i hd
        intro _
        have t3 : s1.takes (.r i) = false := by simp [St.takes, hd]
        rw [sleepR_wakeWriter (h1.endR _), hend, t3]
        simp
      · rename_i hd
        rw [wakeWriter_n]
        intro hz
        have hz : (s1.n - 1#64).toNat ≤ s1.n.toNat + 1 := hz
        have h2 : 1 ≤ s1.n.toNat := by
          rcases Nat.eq_zero_or_pos s1.n.toNat with h0 | h0
          · rw [BitVec.toNat_sub, h0] at hz
            simp at hz
          · exact h0
        have h3 := sub_one_toNat h2
        have t3 : s1.takes (.r i) = true := by simp [St.takes, hd, ha]
        rw [sleepR_wakeWriter ((h1.endR _).setN _), t3]
        show ((∃ j ∈ s1.rq.drop (s1.posted.countP s1.givesW), ((s1.endR i .ok).R j).status = .susp) ∧
            s1.posted.countP s1.handedW + s1.posted.countP (s1.endR i .ok).takes < (s1.n - 1#64).toNat) ↔ _
        rw [hst, takes_endR, h3]
        simp only [if_true]
        constructor
        · rintro ⟨a, b⟩; exact ⟨a, by omega⟩
        · rintro ⟨a, b⟩; exact ⟨a, by omega⟩

theorem runR_sleepW {s : St} {i k : Nat} (h : WF s none) (hk : s.posted[k]? = some (.r i))
    (hu : (St.resumeR { s with posted := s.posted.eraseIdx k } i).ub = false)
    (hz : (St.resumeR { s with posted := s.posted.eraseIdx k } i).n.toNat ≤ s.n.toNat + 1) :
    SleepW (St.resumeR { s with posted := s.posted.eraseIdx k } i) ↔ SleepW s := by
  have c1 := countP_eraseIdx s.givesR _ _ _ hk
  have c2 := countP_eraseIdx s.handedR _ _ _ hk
  have c3 := countP_eraseIdx s.puts _ _ _ hk
  have h1 := h.unpost hk
  generalize hs : { s with posted := s.posted.eraseIdx k } = s1 at hu hz h1 ⊢
  have f1 : s1.givesR = s.givesR := by rw [← hs]; rfl
  have f2 : s1.handedR = s.handedR := by rw [← hs]; rfl
  have f3 : s1.puts = s.puts := by rw [← hs]; rfl
  have f4 : s1.posted = s.posted.eraseIdx k := by rw [← hs]
  have f5 : s1.n = s.n := by rw [← hs]
  have f6 : s1.W = s.W := by rw [← hs]
  have f7 : s1.wq = s.wq := by rw [← hs]
  have f8 : s1.limit = s.limit := by rw [← hs]
  rw [← f1, ← f4] at c1
  rw [← f2, ← f4] at c2
  rw [← f3, ← f4] at c3
  have t3 : s1.puts (.r i) = false := rfl
  rw [t3] at c3
  have goal' : SleepW s ↔ (∃ j ∈ s1.wq.drop (s.posted.countP s1.givesR), (s1.W j).status = .susp) ∧
      s1.n.toNat + (s.posted.countP s1.handedR + s.posted.countP s1.puts) < s1.limit.toNat := by
    rw [f1, f2, f3, f5, f6, f7, f8]; rfl
  rw [goal', c1, c2, c3]
  rw [← f5] at hz
  clear goal' c1 c2 c3 f1 f2 f3 f4 f5 f6 f7 f8 hs
  simp only [Bool.false_eq_true, if_false, Nat.add_zero]
  revert hu hz
  unfold St.resumeR
  split
  · rename_i hc
    intro _ _
    have hq := (h1.closedQ hc).2
    refine ⟨fun x => absurd x (sleepW_nil hq), fun x => ?_⟩
    rw [hq] at x; simp at x
  · split
    · rename_i ha
      intro _ _
      have hd : (s1.R i).direct = false := by
        rcases hd : (s1.R i).direct with _ | _
        · rfl
        · have := h1.rdir i hd; rw [ha] at this; cases this
      have t1 : s1.givesR (.r i) = false := by simp [St.givesR, ha]
      have t2 : s1.handedR (.r i) = false := by simp [St.handedR, hd]
      simp only [SleepW, givesR_endR, handedR_endR]
      rw [t1, t2]
      simp only [Bool.false_eq_true, if_false, Nat.add_zero]
      exact Iff.rfl
    · rename_i ha
      have t1 : s1.givesR (.r i) = true := by simp [St.givesR, ha]
      rw [t1]
      split
      · rename_i hd
        intro hu _
        have t2 : s1.handedR (.r i) = true := by simp [St.handedR, hd]
        rw [sleepW_wakeWriter (h1.endR _) hu, givesR_endR, handedR_endR, t2]
        show (_ ∧ s1.n.toNat + (s1.posted.countP s1.handedR + s1.posted.countP s1.puts + 1) < s1.limit.toNat) ↔ _
        simp only [if_true]
        rw [show s1.posted.countP s1.handedR + s1.posted.countP s1.puts + 1 =
          s1.posted.countP s1.handedR + 1 + s1.posted.countP s1.puts by omega]
        exact Iff.rfl
      · rename_i hd
        intro hu hz
        rw [wakeWriter_n] at hz
        have hz : (s1.n - 1#64).toNat ≤ s1.n.toNat + 1 := hz
        have h2 : 1 ≤ s1.n.toNat := by
          rcases Nat.eq_zero_or_pos s1.n.toNat with h0 | h0
          · rw [BitVec.toNat_sub, h0] at hz
            simp at hz
          · exact h0
        have h3 := sub_one_toNat h2
        have t2 : s1.handedR (.r i) = false := by simp [St.handedR, hd]
        rw [t2]
        have hg := givesR_endR s1 i .ok
        have hh := handedR_endR s1 i .ok
        rw [sleepW_wakeWriter ((h1.endR _).setN _) hu]
        show ((∃ j ∈ s1.wq.drop (s1.posted.countP (s1.endR i .ok).givesR + 1), (s1.W j).status = .susp) ∧
          (s1.n - 1#64).toNat + (s1.posted.countP (s1.endR i .ok).handedR + s1.posted.countP s1.puts + 1) <
            s1.limit.toNat) ↔ _
        rw [hg, hh, h3]
        simp only [if_true, Bool.false_eq_true, if_false, Nat.add_zero]
        constructor
        · rintro ⟨a, b⟩; exact ⟨a, by omega⟩
        · rintro ⟨a, b⟩; exact ⟨a, by omega⟩

theorem runW_sleepW {s : St} {i k : Nat} (h : WF s none) (hk : s.posted[k]? = some (.w i))
    (hz : s.n.toNat ≤ (St.resumeW { s with posted := s.posted.eraseIdx k } i).n.toNat + 1) :
    SleepW (St.resumeW { s with posted := s.posted.eraseIdx k } i) ↔ SleepW s := by
  have c1 := countP_eraseIdx s.givesR _ _ _ hk
  have c2 := countP_eraseIdx s.handedR _ _ _ hk
  have c3 := countP_eraseIdx s.puts _ _ _ hk
  have h1 := h.unpost hk
  generalize hs : { s with posted := s.posted.eraseIdx k } = s1 at hz h1 ⊢
  have f1 : s1.givesR = s.givesR := by rw [← hs]; rfl
  have f2 : s1.handedR = s.handedR := by rw [← hs]; rfl
  have f3 : s1.puts = s.puts := by rw [← hs]; rfl
  have f4 : s1.posted = s.posted.eraseIdx k := by rw [← hs]
  have f5 : s1.n = s.n := by rw [← hs]
  have f6 : s1.W = s.W := by rw [← hs]
  have f7 : s1.wq = s.wq := by rw [← hs]
  have f8 : s1.limit = s.limit := by rw [← hs]
  rw [← f1, ← f4] at c1
  rw [← f2, ← f4] at c2
  rw [← f3, ← f4] at c3
  have t1 : s1.givesR (.w i) = false := rfl
  have t2 : s1.handedR (.w i) = false := rfl
  rw [t1] at c1
  rw [t2] at c2
  have goal' : SleepW s ↔ (∃ j ∈ s1.wq.drop (s.posted.countP s1.givesR), (s1.W j).status = .susp) ∧
      s1.n.toNat + (s.posted.countP s1.handedR + s.posted.countP s1.puts) < s1.limit.toNat := by
    rw [f1, f2, f3, f5, f6, f7, f8]; rfl
  rw [goal', c1, c2, c3]
  rw [← f5] at hz
  clear goal' c1 c2 c3 f1 f2 f3 f4 f5 f6 f7 f8 hs
  simp only [Bool.false_eq_true, if_false, Nat.add_zero]
  have hi : i ∉ s1.wq := (h1.wcur i rfl).2.2
  have hst : ∀ (r : Res) (m : Nat), (∃ j ∈ s1.wq.drop m, ((s1.endW i r).W j).status = .susp) ↔
      (∃ j ∈ s1.wq.drop m, (s1.W j).status = .susp) := fun r m => by
    constructor
    · rintro ⟨j, hj, hs⟩
      refine ⟨j, hj, ?_⟩
      have : j ≠ i := fun e => hi (e ▸ List.mem_of_mem_drop hj)
      simpa [St.endW, upd, this] using hs
    · rintro ⟨j, hj, hs⟩
      refine ⟨j, hj, ?_⟩
      have : j ≠ i := fun e => hi (e ▸ List.mem_of_mem_drop hj)
      simpa [St.endW, upd, this] using hs
  have hend : ∀ r : Res, SleepW (s1.endW i r) ↔ ((∃ j ∈ s1.wq.drop (s1.posted.countP s1.givesR), (s1.W j).status = .susp) ∧
      s1.n.toNat + (s1.posted.countP s1.handedR + s1.posted.countP s1.puts) < s1.limit.toNat) := fun r => by
    rw [← hst r]
    unfold SleepW
    rw [puts_endW]
    exact Iff.rfl
  revert hz
  unfold St.resumeW
  split
  · rename_i hc
    intro _
    have hq := (h1.closedQ (h1.wclosed i hc)).2
    refine ⟨fun x => absurd x (sleepW_nil hq), fun x => ?_⟩
    rw [hq] at x; simp at x
  · split
    · rename_i ha
      intro _
      have t3 : s1.puts (.w i) = false := by simp [St.puts, ha]
      rw [hend, t3]
      simp
    · rename_i ha
      split
      · rename_i hd
        intro _
        have t3 : s1.puts (.w i) = false := by simp [St.puts, hd]
        rw [sleepW_wakeReader (h1.endW _), hend, t3]
        simp
      · rename_i hd
        rw [wakeReader_n]
        intro hz
        have hz : s1.n.toNat ≤ (s1.n + 1#64).toNat + 1 := hz
        have t3 : s1.puts (.w i) = true := by simp [St.puts, hd, ha]
        by_cases ho : s1.n.toNat + 1 < 2 ^ 64
        · have h3 := add_one_toNat ho
          rw [sleepW_wakeReader ((h1.endW _).setN _), t3]
          show ((∃ j ∈ s1.wq.drop (s1.posted.countP s1.givesR), ((s1.endW i .ok).W j).status = .susp) ∧
              (s1.n + 1#64).toNat + (s1.posted.countP s1.handedR + s1.posted.countP (s1.endW i .ok).puts) <
                s1.limit.toNat) ↔ _
          rw [hst, puts_endW, h3]
          simp only [if_true]
          constructor
          · rintro ⟨a, b⟩; exact ⟨a, by omega⟩
          · rintro ⟨a, b⟩; exact ⟨a, by omega⟩
        · exfalso
          rw [BitVec.toNat_add] at hz
          have := s1.n.isLt
          simp only [BitVec.toNat_ofNat] at hz
          omega

/-- Running one posted resumption leaves the question who is left asleep as it is. -/
theorem sleep_run {s : St} (h : WF s none) (k : Nat) (hu : (s.run k).ub = false) (hz : Counts s (s.run k)) :
    (SleepR (s.run k) ↔ SleepR s) ∧ (SleepW (s.run k) ↔ SleepW s) := by
  revert hu hz
  unfold St.run
  split
  · exact fun _ _ => ⟨Iff.rfl, Iff.rfl⟩
  · rename_i i hk
    exact fun hu hz => ⟨runR_sleepR h hk hz.1, runR_sleepW h hk hu hz.1⟩
  · rename_i i hk
    exact fun hu hz => ⟨runW_sleepR h hk hu hz.2, runW_sleepW h hk hz.2⟩

theorem step_ub {s : St} (h : s.ub = true) (e : Ev) : s.step e = s := by simp [St.step, h]

theorem steps_ub (es : List Ev) : ∀ {s : St}, (s.steps es).ub = false → s.ub = false := by
  induction es with
  | nil => exact fun h => h
  | cons e es ih =>
    intro s h
    rcases hu : s.ub with _ | _
    · rfl
    · have := ih (s := s.step e) h
      rw [step_ub hu, hu] at this; cases this

theorem sleep_runs (ms : List Nat) : ∀ {s : St}, WF s none → (s.steps (ms.map .run)).ub = false →
    CountsAll s (ms.map .run) → WF (s.steps (ms.map .run)) none ∧
    (SleepR (s.steps (ms.map .run)) ↔ SleepR s) ∧ (SleepW (s.steps (ms.map .run)) ↔ SleepW s) := by
  induction ms with
  | nil => exact fun h _ _ => ⟨h, Iff.rfl, Iff.rfl⟩
  | cons k ms ih =>
    intro s h hu hz
    have hu' : ((s.step (.run k)).steps (ms.map .run)).ub = false := hu
    have h1 := steps_ub _ hu'
    have h0 : s.ub = false := steps_ub (.run k :: ms.map .run) hu
    have e : s.step (.run k) = s.run k := by simp [St.step, h0]
    have hw : WF (s.step (.run k)) none := (h.step (.run k)).resolve_left (by rw [h1]; simp)
    obtain ⟨a, b, c⟩ := ih hw hu' hz.2
    have hz1 := hz.1
    rw [e] at h1 hz1 b c
    obtain ⟨d1, d2⟩ := sleep_run h k h1 hz1
    refine ⟨a, ?_, ?_⟩
    · show SleepR ((s.step (.run k)).steps (ms.map .run)) ↔ _
      rw [e]; exact b.trans d1
    · show SleepW ((s.step (.run k)).steps (ms.map .run)) ↔ _
      rw [e]; exact c.trans d2

/-- With nothing scheduled these two are what a lost wake-up is. -/
theorem noLost_iff {s : St} (h : WF s none) (hp : s.posted = []) : NoLostWakeUp s ↔ ¬ (SleepR s ∨ SleepW s) := by
  have hr : ∀ i, (s.R i).status = .susp → i ∈ s.rq := fun i hi => by
    rcases h.rsusp i hi with h1 | h1 | h1
    · exact (h.rwait i h1).2
    · rw [hp] at h1; cases h1
    · cases h1
  have hw : ∀ i, (s.W i).status = .susp → i ∈ s.wq := fun i hi => by
    rcases h.wsusp i hi with h1 | h1 | h1
    · exact (h.wwait i h1).2
    · rw [hp] at h1; cases h1
    · cases h1
  constructor
  · intro g x
    obtain ⟨g1, g2⟩ := g hp
    rcases x with ⟨⟨i, _, hi⟩, hn⟩ | ⟨⟨i, _, hi⟩, hn⟩
    · have := (g1 i hi).1; omega
    · have := (g2 i hi).1; omega
  · intro g _
    refine ⟨fun i hi => ⟨?_, fun k hk => ?_⟩, fun i hi => ⟨?_, fun k hk => ?_⟩⟩
    · refine Classical.byContradiction fun hn => g (Or.inl ⟨⟨i, ?_, hi⟩, ?_⟩)
      · rw [hp]; exact hr i hi
      · rw [hp]; simp only [List.countP_nil]; omega
    · rcases h.excl with e | e
      · exact List.ne_nil_of_mem (hr i hi) e
      · exact List.ne_nil_of_mem (hw k hk) e
    · refine Classical.byContradiction fun hn => g (Or.inr ⟨⟨i, ?_, hi⟩, ?_⟩)
      · rw [hp]; exact hw i hi
      · rw [hp]; simp only [List.countP_nil]; omega
    · rcases h.excl with e | e
      · exact List.ne_nil_of_mem (hr k hk) e
      · exact List.ne_nil_of_mem (hw i hi) e

end Cobalt.VChan
