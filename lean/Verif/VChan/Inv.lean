import Verif.VChan.Model
import Mathlib.Tactic.Tauto
/-!
Helper: the control invariant of the channel<void> model. `WF s cur` holds between
steps with `cur = none`; inside a step `cur` is the operation whose coroutine is
about to run `await_resume`.
-/
namespace Cobalt.VChan

open Chan (Status Tok upd)

@[grind =] theorem upd_apply {α : Type} (f : Nat → α) (i : Nat) (x : α) (j : Nat) :
    upd f i x j = if j = i then x else f j := rfl

structure WF (s : St) (cur : Option Tok) : Prop where
  excl : s.rq = [] ∨ s.wq = []
  ndR : s.rq.Nodup
  ndW : s.wq.Nodup
  ndP : s.posted.Nodup
  closedQ : s.closed = true → s.rq = [] ∧ s.wq = []
  rlink : ∀ i, i ∈ s.rq → (s.R i).direct = false ∧
    (((s.R i).status = .susp ∧ (s.R i).waiting = true ∧ (s.R i).cancelled = false) ∨
     ((s.R i).status = .done ∧ (s.R i).waiting = false ∧ (s.R i).cancelled = true))
  wlink : ∀ i, i ∈ s.wq → (s.W i).direct = false ∧ (s.W i).closedF = false ∧
    (((s.W i).status = .susp ∧ (s.W i).waiting = true ∧ (s.W i).cancelled = false) ∨
     ((s.W i).status = .done ∧ (s.W i).waiting = false ∧ (s.W i).cancelled = true))
  rwait : ∀ i, (s.R i).waiting = true → (s.R i).status = .susp ∧ i ∈ s.rq
  wwait : ∀ i, (s.W i).waiting = true → (s.W i).status = .susp ∧ i ∈ s.wq
  rpost : ∀ i, Tok.r i ∈ s.posted → (s.R i).status = .susp ∧ (s.R i).waiting = false ∧
    i ∉ s.rq ∧ cur ≠ some (.r i)
  wpost : ∀ i, Tok.w i ∈ s.posted → (s.W i).status = .susp ∧ (s.W i).waiting = false ∧
    i ∉ s.wq ∧ cur ≠ some (.w i)
  rsusp : ∀ i, (s.R i).status = .susp →
    (s.R i).waiting = true ∨ Tok.r i ∈ s.posted ∨ cur = some (.r i)
  wsusp : ∀ i, (s.W i).status = .susp →
    (s.W i).waiting = true ∨ Tok.w i ∈ s.posted ∨ cur = some (.w i)
  rcur : ∀ i, cur = some (.r i) → ((s.R i).status = .fresh ∨ (s.R i).status = .susp) ∧
    (s.R i).waiting = false ∧ i ∉ s.rq
  wcur : ∀ i, cur = some (.w i) → ((s.W i).status = .fresh ∨ (s.W i).status = .susp) ∧
    (s.W i).waiting = false ∧ i ∉ s.wq
  rnew : ∀ i, s.nextR ≤ i → s.R i = {}
  wnew : ∀ i, s.nextW ≤ i → s.W i = {}
  rabs : ∀ i, i < s.nextR → (s.R i).status ≠ .absent
  wabs : ∀ i, i < s.nextW → (s.W i).status ≠ .absent
  rslot : ∀ i, (s.R i).slot = true → (s.R i).status = .susp ∧
    ((s.R i).direct = false ∨ cur = some (.r i))
  wslot : ∀ i, (s.W i).slot = true → (s.W i).status = .susp ∧
    ((s.W i).direct = false ∨ cur = some (.w i))
  rfresh : ∀ i, (s.R i).status = .fresh → (s.R i).direct = false
  wfresh : ∀ i, (s.W i).status = .fresh → (s.W i).direct = false
  rdir : ∀ i, (s.R i).direct = true → (s.R i).cancelled = false
  wdir : ∀ i, (s.W i).direct = true → (s.W i).cancelled = false ∧ (s.W i).closedF = false
  wclosed : ∀ i, (s.W i).closedF = true → s.closed = true

theorem WF.init (l : BitVec 64) : WF (St.init l) none := by
  constructor <;> simp [St.init]

theorem WF.endR {s : St} {i : Nat} (res : Res) (h : WF s (some (.r i))) :
    WF (s.endR i res) none := by
  have := h.rcur i rfl
  have h1 := h.rpost i
  constructor
  all_goals (cases h; simp only [St.endR]; grind)

theorem WF.endW {s : St} {i : Nat} (res : Res) (h : WF s (some (.w i))) :
    WF (s.endW i res) none := by
  have := h.wcur i rfl
  have h1 := h.wpost i
  constructor
  all_goals (cases h; simp only [St.endW]; grind)


theorem WF.wakeWriter {s : St} (h : WF s none) : s.wakeWriter.ub = true ∨ WF s.wakeWriter none := by
  unfold St.wakeWriter
  split
  · exact Or.inr h
  · rename_i w rest hq
    dsimp only
    split
    · split
      · right
        have := h.wlink w (by simp [hq])
        constructor
        all_goals (cases h; simp only; grind)
      · left; rfl
    · right
      constructor
      all_goals (cases h; simp only; grind)

theorem WF.wakeReader {s : St} (h : WF s none) : s.wakeReader.ub = true ∨ WF s.wakeReader none := by
  unfold St.wakeReader
  split
  · exact Or.inr h
  · rename_i w rest hq
    dsimp only
    split
    · split
      · right
        have := h.rlink w (by simp [hq])
        constructor
        all_goals (cases h; simp only; grind)
      · left; rfl
    · right
      constructor
      all_goals (cases h; simp only; grind)

theorem WF.setN {s : St} {cur : Option Tok} (h : WF s cur) (n : BitVec 64) :
    WF { s with n := n } cur := by
  cases h; constructor <;> assumption

theorem WF.resumeR {s : St} {i : Nat} (h : WF s (some (.r i))) :
    (s.resumeR i).ub = true ∨ WF (s.resumeR i) none := by
  unfold St.resumeR
  split
  · exact Or.inr (h.endR _)
  · split
    · exact Or.inr (h.endR _)
    · split
      · exact (h.endR _).wakeWriter
      · exact ((h.endR _).setN _).wakeWriter

theorem WF.resumeW {s : St} {i : Nat} (h : WF s (some (.w i))) :
    (s.resumeW i).ub = true ∨ WF (s.resumeW i) none := by
  unfold St.resumeW
  split
  · exact Or.inr (h.endW _)
  · split
    · exact Or.inr (h.endW _)
    · split
      · exact (h.endW _).wakeReader
      · exact ((h.endW _).setN _).wakeReader

/-- What an interruption does, spelled out: the channel itself is not touched. -/
theorem intR_eq (s : St) (i : Nat) : s.intR i =
    if (s.R i).status = .absent ∨ (s.R i).status = .gone ∨ (s.R i).direct = true then s
    else if (s.R i).waiting then
      ({ s with R := upd s.R i { s.R i with cancelled := true } }).endR i
        (if s.closed then .brokenPipe else .aborted)
    else { s with R := upd s.R i { s.R i with cancelled := true } } := by
  unfold St.intR
  by_cases h1 : (s.R i).status = .absent ∨ (s.R i).status = .gone
  · rw [if_pos h1, if_pos (by tauto)]
  · by_cases h2 : (s.R i).direct = true
    · rw [if_neg h1, if_pos h2, if_pos (by tauto)]
    · have h5 : ¬ ((s.R i).status = .absent ∨ (s.R i).status = .gone ∨
        (s.R i).direct = true) := by tauto
      rw [if_neg h1, if_neg h2, if_neg h5]
      dsimp only
      split
      · unfold St.resumeR
        simp only [upd_apply, if_true]
        split <;> simp_all
      · rfl

theorem intW_eq (s : St) (i : Nat) : s.intW i =
    if (s.W i).status = .absent ∨ (s.W i).status = .gone ∨ (s.W i).direct = true then s
    else if (s.W i).waiting then
      ({ s with W := upd s.W i { s.W i with cancelled := true } }).endW i
        (if (s.W i).closedF then .brokenPipe else .aborted)
    else { s with W := upd s.W i { s.W i with cancelled := true } } := by
  unfold St.intW
  by_cases h1 : (s.W i).status = .absent ∨ (s.W i).status = .gone
  · rw [if_pos h1, if_pos (by tauto)]
  · by_cases h2 : (s.W i).direct = true
    · rw [if_neg h1, if_pos h2, if_pos (by tauto)]
    · have h5 : ¬ ((s.W i).status = .absent ∨ (s.W i).status = .gone ∨
        (s.W i).direct = true) := by tauto
      rw [if_neg h1, if_neg h2, if_neg h5]
      dsimp only
      split
      · unfold St.resumeW
        simp only [upd_apply, if_true]
        split <;> simp_all
      · rfl

theorem WF.intR {s : St} {cur : Option Tok} (h : WF s cur) (i : Nat) : WF (s.intR i) cur := by
  rw [intR_eq]
  split
  · exact h
  · split
    · have := h.rpost i
      have := h.rcur i
      have := h.rwait i
      constructor
      all_goals (cases h; simp only [St.endR]; grind)
    · constructor
      all_goals (cases h; simp only; grind)

theorem WF.intW {s : St} {cur : Option Tok} (h : WF s cur) (i : Nat) : WF (s.intW i) cur := by
  rw [intW_eq]
  split
  · exact h
  · split
    · have := h.wpost i
      have := h.wcur i
      have := h.wwait i
      constructor
      all_goals (cases h; simp only [St.endW]; grind)
    · constructor
      all_goals (cases h; simp only; grind)

theorem WF.int {s : St} {cur : Option Tok} (h : WF s cur) (t : Tok) : WF (s.int t) cur := by
  cases t
  · exact h.intR _
  · exact h.intW _

theorem WF.hits {s : St} {cur : Option Tok} (h : WF s cur) (ts : List Tok) :
    WF (ts.foldl St.int s) cur := by
  induction ts generalizing s with
  | nil => exact h
  | cons t ts ih => exact ih (h.int t)

theorem upd_comm {α : Type} (f : Nat → α) {i j : Nat} (x y : α) (h : i ≠ j) :
    upd (upd f i x) j y = upd (upd f j y) i x := by
  funext k; grind

/-- Direct operations are immune to interruptions. -/
theorem int_direct {s : St} {i w : Nat} (hr : (s.R i).direct = true)
    (hw : (s.W w).direct = true) (t : Tok) :
    (s.int t).R i = s.R i ∧ (s.int t).W w = s.W w := by
  cases t with
  | r j =>
    simp only [St.int, intR_eq]
    split
    · simp
    · split <;> simp only [St.endR] <;> grind
  | w j =>
    simp only [St.int, intW_eq]
    split
    · simp
    · split <;> simp only [St.endW] <;> grind

theorem int_handR {s : St} {i w : Nat} (hr : (s.R i).direct = true)
    (hw : (s.W w).direct = true) (t : Tok) :
    (s.int t).handR i w = (s.handR i w).int t := by
  cases t with
  | r j =>
    by_cases hj : j = i
    · subst hj
      simp [St.int, intR_eq, hr, St.handR, upd_apply]
    · simp only [St.int, intR_eq, St.handR, upd_apply, hj, if_false]
      have hj' : ¬ i = j := fun e => hj e.symm
      split
      · rfl
      · split
        · simp only [St.endR, upd_apply, if_true, hj', if_false]
          congr 1
          funext k; grind
        · simp only [upd_apply, hj', if_false]
          congr 1
          funext k; grind
  | w j =>
    by_cases hj : j = w
    · subst hj
      simp [St.int, intW_eq, hw, St.handR, upd_apply]
    · simp only [St.int, intW_eq, St.handR, upd_apply, hj, if_false]
      have hj' : ¬ w = j := fun e => hj e.symm
      split
      · rfl
      · split
        · simp only [St.endW, upd_apply, if_true, hj', if_false]
          congr 1
          funext k; grind
        · simp only [upd_apply, hj', if_false]
          congr 1
          funext k; grind

theorem int_handW {s : St} {i j : Nat} (hr : (s.R j).direct = true)
    (hw : (s.W i).direct = true) (t : Tok) :
    (s.int t).handW i j = (s.handW i j).int t := by
  cases t with
  | r k =>
    by_cases hj : k = j
    · subst hj
      simp [St.int, intR_eq, hr, St.handW, upd_apply]
    · simp only [St.int, intR_eq, St.handW, upd_apply, hj, if_false]
      have hj' : ¬ j = k := fun e => hj e.symm
      split
      · rfl
      · split
        · simp only [St.endR, upd_apply, if_true, hj', if_false]
          congr 1
          funext k; grind
        · simp only [upd_apply, hj', if_false]
          congr 1
          funext k; grind
  | w k =>
    by_cases hj : k = i
    · subst hj
      simp [St.int, intW_eq, hw, St.handW, upd_apply]
    · simp only [St.int, intW_eq, St.handW, upd_apply, hj, if_false]
      have hj' : ¬ i = k := fun e => hj e.symm
      split
      · rfl
      · split
        · simp only [St.endW, upd_apply, if_true, hj', if_false]
          congr 1
          funext k; grind
        · simp only [upd_apply, hj', if_false]
          congr 1
          funext k; grind

theorem hits_handR (ts : List Tok) {s : St} {i w : Nat} (hr : (s.R i).direct = true)
    (hw : (s.W w).direct = true) :
    (ts.foldl St.int s).handR i w = ts.foldl St.int (s.handR i w) := by
  induction ts generalizing s with
  | nil => rfl
  | cons t ts ih =>
    obtain ⟨h1, h2⟩ := int_direct hr hw t
    simp only [List.foldl_cons]
    rw [ih (by rw [h1]; exact hr) (by rw [h2]; exact hw), int_handR hr hw]

theorem hits_handW (ts : List Tok) {s : St} {i j : Nat} (hr : (s.R j).direct = true)
    (hw : (s.W i).direct = true) :
    (ts.foldl St.int s).handW i j = ts.foldl St.int (s.handW i j) := by
  induction ts generalizing s with
  | nil => rfl
  | cons t ts ih =>
    obtain ⟨h1, h2⟩ := int_direct hr hw t
    simp only [List.foldl_cons]
    rw [ih (by rw [h1]; exact hr) (by rw [h2]; exact hw), int_handW hr hw]

/-- What `awaitR` does, with the interruptions moved after the hand-over. -/
theorem awaitR_eq (s : St) (i : Nat) (conn txn : Bool) (hits : List Tok) :
    s.awaitR i conn txn hits =
    if (s.R i).status ≠ .fresh then s
    else
      if s.readReady = true ∨ (s.R i).cancelled = true then s.resumeR i
      else match s.wq with
        | [] => s.queueR i conn txn
        | w :: _ =>
          if (s.W w).waiting then
            ((if (s.W w).txn then hits else []).foldl St.int ((s.takeFrom i w txn).handR i w)).resumeW w
          else { s with ub := true } := by
  unfold St.awaitR
  split
  · rfl
  · dsimp only
    split
    · rw [if_pos (by tauto)]
    · split
      · rw [if_pos (by tauto)]
      · rw [if_neg (by tauto)]
        rcases hq : s.wq with _ | ⟨w, rest⟩
        · rfl
        · dsimp only
          split
          · have ht : ∀ (t : St) w, (t.takeFrom i w txn).R i =
              { t.R i with status := .susp, waiting := true, slot := false, txn := txn, direct := true } := by
                intro t w; simp [St.takeFrom, upd_apply]
            have hw : ∀ (t : St) w, (t.takeFrom i w txn).W w =
              { t.W w with direct := true } := by
                intro t w; simp [St.takeFrom, upd_apply]
            rw [← hits_handR _ (by rw [ht]) (by rw [hw]), hw]
            split <;> rfl
          · rfl

/-- What `awaitW` does, with the interruptions moved after the hand-over. -/
theorem awaitW_eq (s : St) (i : Nat) (conn txn : Bool) (hits : List Tok) :
    s.awaitW i conn txn hits =
    if (s.W i).status ≠ .fresh then s
    else
      if s.writeReady = true ∨ (s.W i).cancelled = true then s.resumeW i
      else match s.rq with
        | [] => s.queueW i conn txn
        | j :: _ =>
          if (s.R j).waiting then
            ((if (s.R j).txn then hits else []).foldl St.int ((s.giveTo i j txn).handW i j)).resumeR j
          else { s with ub := true } := by
  unfold St.awaitW
  split
  · rfl
  · dsimp only
    split
    · rw [if_pos (by tauto)]
    · split
      · rw [if_pos (by tauto)]
      · rw [if_neg (by tauto)]
        rcases hq : s.rq with _ | ⟨w, rest⟩
        · rfl
        · dsimp only
          split
          · have ht : ∀ (t : St) j, (t.giveTo i j txn).W i =
              { t.W i with status := .susp, waiting := true, slot := false, txn := txn, direct := true } := by
                intro t w; simp [St.giveTo, upd_apply]
            have hw : ∀ (t : St) j, (t.giveTo i j txn).R j =
              { t.R j with direct := true } := by
                intro t w; simp [St.giveTo, upd_apply]
            rw [← hits_handW _ (by rw [hw]) (by rw [ht]), hw]
            split <;> rfl
          · rfl

end Cobalt.VChan
