import Verif.VChan.Inv2
import Verif.VChan.Spec
import Mathlib.Tactic.Ring
/-! Helper: what each step does to the number of tokens. -/
namespace Cobalt.VChan

open Chan (Status Tok upd)

theorem heldCount_succ (f : Nat → Op) (n : Nat) :
    heldCount f (n + 1) = heldCount f n + (f n).held.toNat := by
  simp only [heldCount, List.range_succ, List.countP_append, List.countP_cons, List.countP_nil]
  cases (f n).held <;> simp

theorem heldCount_congr {f g : Nat → Op} (h : ∀ i, (f i).held = (g i).held) (n : Nat) :
    heldCount f n = heldCount g n := by
  simp [heldCount, h]

theorem heldCount_upd_ge (f : Nat → Op) (i : Nat) (x : Op) {n : Nat} (h : n ≤ i) :
    heldCount (upd f i x) n = heldCount f n := by
  induction n with
  | zero => rfl
  | succ n ih =>
    rw [heldCount_succ, heldCount_succ, ih (by omega)]
    simp [upd_apply, show n ≠ i by omega]

theorem heldCount_upd (f : Nat → Op) (i : Nat) (x : Op) {n : Nat} (h : i < n) :
    heldCount (upd f i x) n + (f i).held.toNat = heldCount f n + x.held.toNat := by
  induction n with
  | zero => omega
  | succ n ih =>
    rw [heldCount_succ, heldCount_succ]
    by_cases e : i = n
    · subst e
      rw [heldCount_upd_ge _ _ _ (Nat.le_refl _)]
      simp [upd_apply]; omega
    · have := ih (by omega)
      simp only [upd_apply, show n ≠ i from fun h => e h.symm, if_false]
      omega

/-- Tokens that should be stored: written minus read, counting those in flight. -/
def St.v (s : St) : Int :=
  (writes s.log : Int) + s.given - (reads s.log : Int) - s.handed

theorem reads_snoc (l : List Obs) (o : Obs) :
    reads (l ++ [o]) = reads l + (match o with | .doneR _ .ok => 1 | _ => 0) := by
  simp only [reads, List.countP_append, List.countP_cons, List.countP_nil]
  rcases o with ⟨i, r⟩ | ⟨i, r⟩ <;> cases r <;> rfl

theorem writes_snoc (l : List Obs) (o : Obs) :
    writes (l ++ [o]) = writes l + (match o with | .doneW _ .ok => 1 | _ => 0) := by
  simp only [writes, List.countP_append, List.countP_cons, List.countP_nil]
  rcases o with ⟨i, r⟩ | ⟨i, r⟩ <;> cases r <;> rfl

theorem WF.ltR {s : St} {cur : Option Tok} (h : WF s cur) {i : Nat}
    (hi : (s.R i).status ≠ .absent) : i < s.nextR := by
  rcases Nat.lt_or_ge i s.nextR with h1 | h1
  · exact h1
  · exact absurd (by rw [h.rnew i h1]) hi

theorem WF.ltW {s : St} {cur : Option Tok} (h : WF s cur) {i : Nat}
    (hi : (s.W i).status ≠ .absent) : i < s.nextW := by
  rcases Nat.lt_or_ge i s.nextW with h1 | h1
  · exact h1
  · exact absurd (by rw [h.wnew i h1]) hi

theorem v_congr {s t : St} (hl : t.log = s.log) (hr : t.nextR = s.nextR) (hw : t.nextW = s.nextW)
    (hR : ∀ i, (t.R i).held = (s.R i).held) (hW : ∀ i, (t.W i).held = (s.W i).held) :
    t.v = s.v := by
  simp only [St.v, St.given, St.handed, hl, hr, hw, heldCount_congr hR, heldCount_congr hW]

theorem v_wakeWriter (s : St) : s.wakeWriter.v = s.v ∧ s.wakeWriter.n = s.n := by
  unfold St.wakeWriter
  split
  · simp
  · dsimp only
    split
    · split
      · refine ⟨v_congr rfl rfl rfl (fun _ => rfl) (fun i => ?_), rfl⟩
        simp only [upd_apply]; split
        · subst_vars; rfl
        · rfl
      · exact ⟨rfl, rfl⟩
    · exact ⟨rfl, rfl⟩

theorem v_wakeReader (s : St) : s.wakeReader.v = s.v ∧ s.wakeReader.n = s.n := by
  unfold St.wakeReader
  split
  · simp
  · dsimp only
    split
    · split
      · refine ⟨v_congr rfl rfl rfl (fun i => ?_) (fun _ => rfl), rfl⟩
        simp only [upd_apply]; split
        · subst_vars; rfl
        · rfl
      · exact ⟨rfl, rfl⟩
    · exact ⟨rfl, rfl⟩

theorem v_endR {s : St} {cur : Option Tok} (h : WF s cur) {i : Nat}
    (hi : (s.R i).status ≠ .absent) (res : Res) :
    (s.endR i res).v = s.v + (s.R i).held.toNat - (match res with | .ok => 1 | _ => 0) := by
  have h1 := heldCount_upd s.R i { s.R i with status := .done, slot := false, waiting := false }
    (h.ltR hi)
  have h2 : ({ s.R i with status := .done, slot := false, waiting := false } : Op).held = false := rfl
  rw [h2] at h1
  simp only [St.v, St.endR, St.given, St.handed, reads_snoc, writes_snoc]
  simp only [Bool.toNat_false] at h1
  cases res <;> dsimp only <;> omega

theorem v_endW {s : St} {cur : Option Tok} (h : WF s cur) {i : Nat}
    (hi : (s.W i).status ≠ .absent) (res : Res) :
    (s.endW i res).v = s.v - (s.W i).held.toNat + (match res with | .ok => 1 | _ => 0) := by
  have h1 := heldCount_upd s.W i { s.W i with status := .done, slot := false, waiting := false }
    (h.ltW hi)
  have h2 : ({ s.W i with status := .done, slot := false, waiting := false } : Op).held = false := rfl
  rw [h2] at h1
  simp only [St.v, St.endW, St.given, St.handed, reads_snoc, writes_snoc]
  simp only [Bool.toNat_false] at h1
  cases res <;> dsimp only <;> omega

/-- On an open channel a resumed reader consumes a stored token, one it was
handed, or none because it was cancelled. -/
theorem v_resumeR {s : St} {i : Nat} (h : WF s (some (.r i))) (ho : s.closed = false) :
    ((s.resumeR i).v = s.v ∧ (s.resumeR i).n = s.n) ∨
    ((s.R i).direct = false ∧ (s.R i).cancelled = false ∧
      (s.resumeR i).v = s.v - 1 ∧ (s.resumeR i).n = s.n - 1#64) := by
  have hc := (h.rcur i rfl).1
  have hna : (s.R i).status ≠ .absent := by rcases hc with hc | hc <;> simp [hc]
  have hd := h.rdir i
  have hf := h.rfresh i
  unfold St.resumeR
  rw [if_neg (by simp [ho])]
  split
  · rename_i hcan
    have : (s.R i).direct = false := by grind
    left
    rw [v_endR h hna]
    simp [Op.held, this, St.endR]
  · rename_i hcan
    split
    · rename_i hdir
      left
      rw [(v_wakeWriter _).1, (v_wakeWriter _).2, v_endR h hna]
      have : (s.R i).status = .susp := by grind
      simp [Op.held, hdir, this, St.endR]
    · rename_i hdir
      right
      rw [(v_wakeWriter _).1, (v_wakeWriter _).2]
      refine ⟨by simpa using hdir, by simpa using hcan, ?_, rfl⟩
      have : (({ s.endR i .ok with n := s.n - 1#64 } : St)).v = (s.endR i .ok).v := rfl
      rw [this, v_endR h hna]
      simp [Op.held, hdir]

theorem v_resumeW {s : St} {i : Nat} (h : WF s (some (.w i))) (ho : s.closed = false) :
    ((s.resumeW i).v = s.v ∧ (s.resumeW i).n = s.n) ∨
    ((s.W i).direct = false ∧ (s.W i).cancelled = false ∧
      (s.resumeW i).v = s.v + 1 ∧ (s.resumeW i).n = s.n + 1#64) := by
  have hc := (h.wcur i rfl).1
  have hna : (s.W i).status ≠ .absent := by rcases hc with hc | hc <;> simp [hc]
  have hd := h.wdir i
  have hf := h.wfresh i
  have hk := h.wclosed i
  unfold St.resumeW
  rw [if_neg (by simp; grind)]
  split
  · rename_i hcan
    have : (s.W i).direct = false := by grind
    left
    rw [v_endW h hna]
    simp [Op.held, this, St.endW]
  · rename_i hcan
    split
    · rename_i hdir
      left
      rw [(v_wakeReader _).1, (v_wakeReader _).2, v_endW h hna]
      have : (s.W i).status = .susp := by grind
      simp [Op.held, hdir, this, St.endW]
    · rename_i hdir
      right
      rw [(v_wakeReader _).1, (v_wakeReader _).2]
      refine ⟨by simpa using hdir, by simpa using hcan, ?_, rfl⟩
      have : (({ s.endW i .ok with n := s.n + 1#64 } : St)).v = (s.endW i .ok).v := rfl
      rw [this, v_endW h hna]
      simp [Op.held, hdir]

theorem v_int {s : St} {cur : Option Tok} (h : WF s cur) (t : Tok) :
    (s.int t).v = s.v ∧ (s.int t).n = s.n := by
  cases t with
  | r i =>
    simp only [St.int, intR_eq]
    split
    · simp
    · rename_i hn
      simp only [not_or, Bool.not_eq_true] at hn
      have h1 : ∀ x : Bool, ({ s with R := upd s.R i { s.R i with cancelled := x } } : St).v = s.v := by
        intro x
        refine v_congr rfl rfl rfl (fun j => ?_) (fun _ => rfl)
        simp only [upd_apply]; split
        · subst_vars; rfl
        · rfl
      split
      · rename_i hw
        refine ⟨?_, rfl⟩
        have h2 := heldCount_upd s.R i { s.R i with status := .done, slot := false, waiting := false, cancelled := true }
          (h.ltR hn.1)
        have e1 : (s.R i).held = false := by simp [Op.held, hn.2.2]
        have e2 : ({ s.R i with status := .done, slot := false, waiting := false, cancelled := true } : Op).held
          = false := rfl
        rw [e1, e2] at h2
        have h3 : upd (upd s.R i { s.R i with cancelled := true }) i
          { upd s.R i { s.R i with cancelled := true } i with status := .done, slot := false, waiting := false }
          = upd s.R i { s.R i with status := .done, slot := false, waiting := false, cancelled := true } := by
          funext k; grind
        simp only [St.v, St.endR, St.given, St.handed, reads_snoc, writes_snoc, h3]
        simp only [Bool.toNat_false, Nat.add_zero] at h2
        rw [h2]
        cases s.closed <;> simp
      · exact ⟨h1 _, rfl⟩
  | w i =>
    simp only [St.int, intW_eq]
    split
    · simp
    · rename_i hn
      simp only [not_or, Bool.not_eq_true] at hn
      have h1 : ∀ x : Bool, ({ s with W := upd s.W i { s.W i with cancelled := x } } : St).v = s.v := by
        intro x
        refine v_congr rfl rfl rfl (fun _ => rfl) (fun j => ?_)
        simp only [upd_apply]; split
        · subst_vars; rfl
        · rfl
      split
      · rename_i hw
        refine ⟨?_, rfl⟩
        have h2 := heldCount_upd s.W i { s.W i with status := .done, slot := false, waiting := false, cancelled := true }
          (h.ltW hn.1)
        have e1 : (s.W i).held = false := by simp [Op.held, hn.2.2]
        have e2 : ({ s.W i with status := .done, slot := false, waiting := false, cancelled := true } : Op).held
          = false := rfl
        rw [e1, e2] at h2
        have h3 : upd (upd s.W i { s.W i with cancelled := true }) i
          { upd s.W i { s.W i with cancelled := true } i with status := .done, slot := false, waiting := false }
          = upd s.W i { s.W i with status := .done, slot := false, waiting := false, cancelled := true } := by
          funext k; grind
        simp only [St.v, St.endW, St.given, St.handed, reads_snoc, writes_snoc, h3]
        simp only [Bool.toNat_false, Nat.add_zero] at h2
        rw [h2]
        cases (s.W i).closedF <;> simp
      · exact ⟨h1 _, rfl⟩

theorem v_hits {s : St} {cur : Option Tok} (h : WF s cur) (ts : List Tok) :
    (ts.foldl St.int s).v = s.v ∧ (ts.foldl St.int s).n = s.n := by
  induction ts generalizing s with
  | nil => exact ⟨rfl, rfl⟩
  | cons t ts ih =>
    have h1 := ih (h.int t)
    have h2 := v_int h t
    simp only [List.foldl_cons]
    exact ⟨h1.1.trans h2.1, h1.2.trans h2.2⟩

theorem v_handR {s : St} (h : WF s none) {i w : Nat} (txn : Bool) {rest : List Nat}
    (hf : (s.R i).status = .fresh) (hq : s.wq = w :: rest) (hw : (s.W w).waiting = true) :
    ((s.takeFrom i w txn).handR i w).v = s.v ∧ ((s.takeFrom i w txn).handR i w).n = s.n := by
  refine ⟨?_, rfl⟩
  have hd := h.rfresh i hf
  have hl := h.wlink w (by simp [hq])
  have hs := (h.wwait w hw).1
  have h1 := heldCount_upd s.R i { s.R i with
      status := .susp, waiting := false, slot := false, txn := txn, direct := true }
      (h.ltR (by simp [hf]))
  have h2 := heldCount_upd s.W w { s.W w with direct := true, waiting := false }
      (h.ltW (by simp [hs]))
  have h3 : ((s.takeFrom i w txn).handR i w).R = upd s.R i { s.R i with
      status := .susp, waiting := false, slot := false, txn := txn, direct := true } := by
    funext k; simp only [St.takeFrom, St.handR]; grind
  have h4 : ((s.takeFrom i w txn).handR i w).W = upd s.W w { s.W w with direct := true, waiting := false } := by
    funext k; simp only [St.takeFrom, St.handR]; grind
  have e1 : (s.R i).held = false := by simp [Op.held, hf]
  have e2 : (s.W w).held = false := by simp [Op.held, hl.1]
  have e3 : ({ s.R i with
      status := .susp, waiting := false, slot := false, txn := txn, direct := true } : Op).held = true := rfl
  have e4 : ({ s.W w with direct := true, waiting := false } : Op).held = true := by simp [Op.held, hs]
  rw [e1, e3] at h1
  rw [e2, e4] at h2
  simp only [Bool.toNat_true, Bool.toNat_false] at h1 h2
  simp only [St.v, St.given, St.handed, h3, h4]
  simp only [St.takeFrom, St.handR]
  omega

theorem v_handW {s : St} (h : WF s none) {i j : Nat} (txn : Bool) {rest : List Nat}
    (hf : (s.W i).status = .fresh) (hq : s.rq = j :: rest) (hw : (s.R j).waiting = true) :
    ((s.giveTo i j txn).handW i j).v = s.v ∧ ((s.giveTo i j txn).handW i j).n = s.n := by
  refine ⟨?_, rfl⟩
  have hd := h.wfresh i hf
  have hl := h.rlink j (by simp [hq])
  have hs := (h.rwait j hw).1
  have h1 := heldCount_upd s.W i { s.W i with
      status := .susp, waiting := false, slot := false, txn := txn, direct := true }
      (h.ltW (by simp [hf]))
  have h2 := heldCount_upd s.R j { s.R j with direct := true, waiting := false }
      (h.ltR (by simp [hs]))
  have h3 : ((s.giveTo i j txn).handW i j).W = upd s.W i { s.W i with
      status := .susp, waiting := false, slot := false, txn := txn, direct := true } := by
    funext k; simp only [St.giveTo, St.handW]; grind
  have h4 : ((s.giveTo i j txn).handW i j).R = upd s.R j { s.R j with direct := true, waiting := false } := by
    funext k; simp only [St.giveTo, St.handW]; grind
  have e1 : (s.W i).held = false := by simp [Op.held, hf]
  have e2 : (s.R j).held = false := by simp [Op.held, hl.1]
  have e3 : ({ s.W i with
      status := .susp, waiting := false, slot := false, txn := txn, direct := true } : Op).held = true := rfl
  have e4 : ({ s.R j with direct := true, waiting := false } : Op).held = true := by simp [Op.held, hs]
  rw [e1, e3] at h1
  rw [e2, e4] at h2
  simp only [Bool.toNat_true, Bool.toNat_false] at h1 h2
  simp only [St.v, St.given, St.handed, h3, h4]
  simp only [St.giveTo, St.handW]
  omega

theorem v_queueR {s : St} (h : WF s none) {i : Nat} (conn txn : Bool) (hf : (s.R i).status = .fresh) :
    (s.queueR i conn txn).v = s.v ∧ (s.queueR i conn txn).n = s.n := by
  refine ⟨v_congr rfl rfl rfl (fun j => ?_) (fun _ => rfl), rfl⟩
  have := h.rfresh i hf
  simp only [St.queueR, upd_apply]; split
  · subst_vars; simp [Op.held, this]
  · rfl

theorem v_queueW {s : St} (h : WF s none) {i : Nat} (conn txn : Bool) (hf : (s.W i).status = .fresh) :
    (s.queueW i conn txn).v = s.v ∧ (s.queueW i conn txn).n = s.n := by
  refine ⟨v_congr rfl rfl rfl (fun _ => rfl) (fun j => ?_), rfl⟩
  have := h.wfresh i hf
  simp only [St.queueW, upd_apply]; split
  · subst_vars; simp [Op.held, this]
  · rfl

theorem v_cancelR (s : St) (i : Nat) : (s.cancelR i).v = s.v ∧ (s.cancelR i).n = s.n := by
  unfold St.cancelR
  split
  · refine ⟨v_congr rfl rfl rfl (fun j => ?_) (fun _ => rfl), rfl⟩
    simp only [upd_apply]; split
    · subst_vars; rfl
    · rfl
  · simp

theorem v_cancelW (s : St) (i : Nat) : (s.cancelW i).v = s.v ∧ (s.cancelW i).n = s.n := by
  unfold St.cancelW
  split
  · refine ⟨v_congr rfl rfl rfl (fun _ => rfl) (fun j => ?_), rfl⟩
    simp only [upd_apply]; split
    · subst_vars; rfl
    · rfl
  · simp

theorem v_dropR (s : St) (i : Nat) : (s.dropR i).v = s.v ∧ (s.dropR i).n = s.n := by
  unfold St.dropR
  split
  · rename_i hs
    refine ⟨v_congr rfl rfl rfl (fun j => ?_) (fun _ => rfl), rfl⟩
    simp only [upd_apply]; split
    · subst_vars; rcases hs with hs | hs <;> simp [Op.held, hs]
    · rfl
  · simp

theorem v_dropW (s : St) (i : Nat) : (s.dropW i).v = s.v ∧ (s.dropW i).n = s.n := by
  unfold St.dropW
  split
  · rename_i hs
    refine ⟨v_congr rfl rfl rfl (fun _ => rfl) (fun j => ?_), rfl⟩
    simp only [upd_apply]; split
    · subst_vars; rcases hs with hs | hs <;> simp [Op.held, hs]
    · rfl
  · simp

theorem v_mkR {s : St} (hu : s.ub = false) :
    (s.step .mkR).v = s.v ∧ (s.step .mkR).n = s.n := by
  have h1 : heldCount (upd s.R s.nextR { status := .fresh }) (s.nextR + 1) = heldCount s.R s.nextR := by
    rw [heldCount_succ, heldCount_upd_ge _ _ _ (Nat.le_refl _)]
    simp [upd_apply, Op.held]
  simp only [St.step, hu, St.v, St.handed, St.given]
  simp [h1]

theorem v_mkW {s : St} (hu : s.ub = false) :
    (s.step .mkW).v = s.v ∧ (s.step .mkW).n = s.n := by
  have h1 : heldCount (upd s.W s.nextW { status := .fresh, closedF := s.closed }) (s.nextW + 1) = heldCount s.W s.nextW := by
    rw [heldCount_succ, heldCount_upd_ge _ _ _ (Nat.le_refl _)]
    simp [upd_apply, Op.held]
  simp only [St.step, hu, St.v, St.handed, St.given]
  simp [h1]

end Cobalt.VChan
