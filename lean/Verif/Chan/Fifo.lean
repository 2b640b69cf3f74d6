import Verif.Chan.Rendezvous2
/-! Helper: one producer and one consumer, any limit. -/
namespace Cobalt.Chan

def St.actR (s : St) (cur : Option Tok) (i : Nat) : Prop := (s.R i).status = .susp ∨ cur = some (.r i)
def St.actW (s : St) (cur : Option Tok) (i : Nat) : Prop := (s.W i).status = .susp ∨ cur = some (.w i)

/-- What holds with one producer and one consumer. -/
structure JC (s : St) (cur : Option Tok) : Prop where
  oneR : ∀ i j, s.actR cur i → s.actR cur j → i = j
  oneW : ∀ i j, s.actW cur i → s.actW cur j → i = j
  posR : ∀ i, Tok.r i ∈ s.posted ∨ cur = some (.r i) → (s.R i).cancelled = false →
    (s.R i).direct = none → s.buf ≠ [] ∨ s.closed = true
  posW : ∀ i, Tok.w i ∈ s.posted ∨ cur = some (.w i) → (s.W i).cancelled = false →
    (s.W i).closedF = false → (s.W i).direct = false → s.buf.length < s.cap
  dirR : ∀ i, (s.R i).direct ≠ none → s.cap = 0
  dirW : ∀ i, (s.W i).direct = true → s.cap = 0
  lastW : ∀ i, s.actW cur i → (startsW s.log).getLast? = some i
  ndS : (startsW s.log).Nodup
  noAss : s.asserted = false
  ub : s.ub = false
  fifo1 : ∀ i d, s.actR cur i → (s.R i).direct = some d → delivered s.log ++ s.buf ++ [d] = s.taken
  fifo0 : (∀ i, s.actR cur i → (s.R i).direct = none) → delivered s.log ++ s.buf = s.taken

/-- … and, when nothing is in the middle of happening, somebody waits only if
there is reason to. -/
structure J (s : St) (cur : Option Tok) : Prop extends JC s cur where
  rqb : s.rq ≠ [] → s.buf = []
  wqb : s.wq ≠ [] → s.buf.length = s.cap

theorem J.init (cap : Nat) : J (St.init cap) none := by
  refine ⟨⟨?_, ?_, ?_, ?_, ?_, ?_, ?_, ?_, ?_, ?_, ?_, ?_⟩, ?_, ?_⟩ <;> simp [St.init, St.actR, St.actW, St.taken, startsW, delivered]

@[simp, grind =] theorem startsW_doneR (l : List Obs) (i : Nat) (r : RRes) :
    startsW (l ++ [.doneR i r]) = startsW l := by simp [startsW]
@[simp, grind =] theorem startsW_doneW (l : List Obs) (i : Nat) (r : WRes) :
    startsW (l ++ [.doneW i r]) = startsW l := by simp [startsW]
@[simp, grind =] theorem startsW_startR (l : List Obs) (i : Nat) :
    startsW (l ++ [.startR i]) = startsW l := by simp [startsW]
@[simp, grind =] theorem startsW_startW (l : List Obs) (i : Nat) :
    startsW (l ++ [.startW i]) = startsW l ++ [i] := by simp [startsW]

@[grind =] theorem mem_startsW (l : List Obs) (i : Nat) : i ∈ startsW l ↔ Obs.startW i ∈ l := by
  simp only [startsW, List.mem_filterMap]
  constructor
  · rintro ⟨o, ho, h⟩
    split at h <;> simp_all
  · intro h
    exact ⟨_, h, rfl⟩

/-- The values taken over do not change. -/
theorem taken_congr {s s' : St} (hl : startsW s'.log = startsW s.log)
    (h : ∀ w, Obs.startW w ∈ s.log →
      ((Obs.doneW w .ok ∈ s'.log ∨ ((s'.W w).status = .susp ∧ (s'.W w).direct = true)) ↔
       (Obs.doneW w .ok ∈ s.log ∨ ((s.W w).status = .susp ∧ (s.W w).direct = true)))) :
    s'.taken = s.taken := by
  unfold St.taken
  rw [hl]
  apply List.filter_congr
  intro w hw
  have := h w ((mem_startsW _ _).1 hw)
  rw [Bool.eq_iff_iff]
  simpa using this

/-- The last written value is taken over. -/
theorem taken_snoc {s s' : St} {i : Nat} (hl : startsW s'.log = startsW s.log)
    (hn : (startsW s.log).Nodup) (hlast : (startsW s.log).getLast? = some i)
    (hi : ¬ (Obs.doneW i .ok ∈ s.log ∨ ((s.W i).status = .susp ∧ (s.W i).direct = true)))
    (hi' : Obs.doneW i .ok ∈ s'.log ∨ ((s'.W i).status = .susp ∧ (s'.W i).direct = true))
    (h : ∀ w, w ≠ i →
      ((Obs.doneW w .ok ∈ s'.log ∨ ((s'.W w).status = .susp ∧ (s'.W w).direct = true)) ↔
       (Obs.doneW w .ok ∈ s.log ∨ ((s.W w).status = .susp ∧ (s.W w).direct = true)))) :
    s'.taken = s.taken ++ [i] := by
  obtain ⟨l, hl'⟩ : ∃ l, startsW s.log = l ++ [i] := by
    rw [List.getLast?_eq_some_iff] at hlast
    exact hlast
  unfold St.taken
  rw [hl, hl', List.filter_append, List.filter_append]
  have hnl : i ∉ l := by
    rw [hl'] at hn
    exact (nodup_snoc.1 hn).2
  have h1 : List.filter (fun w => decide (Obs.doneW w .ok ∈ s'.log) || (decide ((s'.W w).status = .susp) && (s'.W w).direct)) [i] = [i] := by
    rw [List.filter_cons_of_pos]
    · simp
    · simpa using hi'
  have h2 : List.filter (fun w => decide (Obs.doneW w .ok ∈ s.log) || (decide ((s.W w).status = .susp) && (s.W w).direct)) [i] = [] := by
    rw [List.filter_cons_of_neg]
    · simp
    · simpa using hi
  rw [h1, h2, List.append_nil]
  congr 1
  apply List.filter_congr
  intro w hw
  have := h w (fun e => hnl (e ▸ hw))
  rw [Bool.eq_iff_iff]
  simpa using this

/-- Each write is awaited once. -/
theorem nodup_startsW_step {l : List Obs} {i : Nat} (h : (startsW l).Nodup) (hi : Obs.startW i ∉ l) :
    (startsW (l ++ [.startW i])).Nodup := by
  rw [startsW_startW]
  exact nodup_snoc.2 ⟨h, fun hm => hi ((mem_startsW _ _).1 hm)⟩


/-- No other reader is suspended when a reader's coroutine runs. -/
theorem JC.noR {s : St} {i : Nat} {res : RRes} (j : JC s (some (.r i))) (k : Nat) :
    ((s.endR i res).R k).status ≠ .susp := by
  have := j.oneR k i
  simp only [St.endR, St.actR] at *
  grind

theorem JC.noDir {s : St} {i : Nat} (j : JC s (some (.r i))) (hd : (s.R i).direct = none) :
    delivered s.log ++ s.buf = s.taken :=
  j.fifo0 (by
    intro k hk
    have := j.oneR k i hk (Or.inr rfl)
    rw [this]; exact hd)

theorem taken_frame {s s' : St} {m : List Obs} (h1 : s'.log = s.log ++ m)
    (hm : ∀ o ∈ m, (∀ i, o ≠ .startW i) ∧ (∀ i, o ≠ .doneW i .ok))
    (h2 : ∀ w, (s'.W w).status = (s.W w).status ∧ (s'.W w).direct = (s.W w).direct) :
    s'.taken = s.taken := by
  apply taken_congr
  · have : startsW m = [] := by
      rw [List.eq_nil_iff_forall_not_mem]
      intro i hi
      exact (hm _ ((mem_startsW _ _).1 hi)).1 i rfl
    simp only [h1, startsW, List.filterMap_append] at *
    simp [this]
  · intro w _
    rw [(h2 w).1, (h2 w).2, h1, List.mem_append]
    have : Obs.doneW w .ok ∉ m := fun hi => (hm _ hi).2 w rfl
    simp [this]

/-- A read ends without a value. -/
theorem JC.failR {s : St} {i : Nat} {res : RRes} (h : WF s (some (.r i))) (j : JC s (some (.r i)))
    (hr : ∀ w, res ≠ .value w) (hd : (s.R i).direct = none) : JC (s.endR i res) none := by
  have hc := h.rcur i rfl
  have hn := j.noR (res := res)
  have hf := j.noDir hd
  have ht : (s.endR i res).taken = s.taken :=
    taken_frame (m := [_]) rfl (by simp) (fun _ => ⟨rfl, rfl⟩)
  constructor
  case fifo1 => intro k d hk; exact absurd hk (by simp [St.actR, hn])
  case fifo0 =>
    rw [ht]
    intro _
    simp only [St.endR, delivered_fail _ _ _ hr]
    exact hf
  all_goals (cases j; simp only [St.endR, St.actR, St.actW] at *; grind)

/-- A write ends without being accepted. -/
theorem JC.failW {s : St} {i : Nat} {res : WRes} (h : WF s (some (.w i))) (j : JC s (some (.w i)))
    (hr : res ≠ .ok) (hd : (s.W i).direct = false) : JC (s.endW i res) none := by
  have hc := h.wcur i rfl
  have ht : (s.endW i res).taken = s.taken := by
    apply taken_congr
    · simp [St.endW]
    · intro w _; simp only [St.endW]; grind
  constructor
  case fifo1 => rw [ht]; cases j; simp only [St.endW, St.actR] at *; grind
  case fifo0 => rw [ht]; cases j; simp only [St.endW, St.actR] at *; grind
  all_goals (cases j; simp only [St.endW, St.actR, St.actW] at *; grind)

/-- A read ends with the value handed to it. -/
theorem JC.valDirect {s : St} {i d : Nat} (h : WF s (some (.r i))) (j : JC s (some (.r i)))
    (hd : (s.R i).direct = some d) (hb : s.buf = []) : JC (s.endR i (.value d)) none := by
  have hc := h.rcur i rfl
  have hn := j.noR (res := .value d)
  have ht : (s.endR i (.value d)).taken = s.taken :=
    taken_frame (m := [_]) rfl (by simp) (fun _ => ⟨rfl, rfl⟩)
  constructor
  case fifo1 => intro k d hk; exact absurd hk (by simp [St.actR, hn])
  case fifo0 =>
    rw [ht]
    intro _
    have := j.fifo1 i d (Or.inr rfl) hd
    simpa [St.endR, hb] using this
  all_goals (cases j; simp only [St.endR, St.actR, St.actW] at *; grind)

/-- A read takes the oldest buffered value. -/
theorem JC.valFront {s : St} {i b : Nat} {bs : List Nat} (h : WF s (some (.r i))) (j : JC s (some (.r i)))
    (hd : (s.R i).direct = none) (hb : s.buf = b :: bs) :
    JC { s.endR i (.value b) with buf := bs } none := by
  have hc := h.rcur i rfl
  have hn := j.noR (res := .value b)
  have hf := j.noDir hd
  have hp : ∀ k, Tok.r k ∉ s.posted := by
    intro k hk
    have h1 := h.rpost k hk
    have := j.oneR k i (Or.inl h1.1) (Or.inr rfl)
    subst this
    exact h1.2.2.2 rfl
  have ht : ({ s.endR i (.value b) with buf := bs } : St).taken = s.taken :=
    taken_frame (m := [_]) rfl (by simp) (fun _ => ⟨rfl, rfl⟩)
  constructor
  case fifo1 => intro k d hk; exact absurd hk (by simp [St.actR, hn])
  case fifo0 => rw [ht]; intro _; simpa [St.endR, hb] using hf
  all_goals (cases j; simp only [St.endR, St.actR, St.actW] at *; grind)

/-- A handed-over value's write ends. -/
theorem JC.okDirect {s : St} {i : Nat} (h : WF s (some (.w i))) (j : JC s (some (.w i)))
    (hd : (s.W i).direct = true) : JC (s.endW i .ok) none := by
  have hc := h.wcur i rfl
  have hs : (s.W i).status = .susp := by have := h.wfresh i; grind
  have ht : (s.endW i .ok).taken = s.taken := by
    apply taken_congr
    · simp [St.endW]
    · intro w _; simp only [St.endW]; grind
  constructor
  case fifo1 => rw [ht]; cases j; simp only [St.endW, St.actR] at *; grind
  case fifo0 => rw [ht]; cases j; simp only [St.endW, St.actR] at *; grind
  all_goals (cases j; simp only [St.endW, St.actR, St.actW] at *; grind)

/-- A write puts its value into the buffer. -/
theorem JC.okPush {s : St} {i : Nat} (h : WF s (some (.w i))) (t : TK s (some (.w i)))
    (j : JC s (some (.w i))) (hk : (s.W i).closedF = false) (hca : (s.W i).cancelled = false)
    (hd : (s.W i).direct = false) :
    s.buf.length < s.cap ∧
    JC { s.endW i .ok with buf := s.buf ++ [i], asserted := s.asserted || decide (s.buf.length = s.cap) } none := by
  have hc := h.wcur i rfl
  have hlen : s.buf.length < s.cap := j.posW i (Or.inr rfl) hca hk hd
  have hp : ∀ k, Tok.w k ∉ s.posted := by
    intro k hk
    have h1 := h.wpost k hk
    have := j.oneW k i (Or.inl h1.1) (Or.inr rfl)
    subst this
    exact h1.2.2.2 rfl
  have hne : Obs.doneW i .ok ∉ s.log := by
    intro hm; have := t.endW i _ hm; grind
  have ht : ({ s.endW i .ok with buf := s.buf ++ [i], asserted := s.asserted || decide (s.buf.length = s.cap) } : St).taken = s.taken ++ [i] := by
    apply taken_snoc
    · simp [St.endW]
    · exact j.ndS
    · exact j.lastW i (Or.inr rfl)
    · simp [hne, hd]
    · simp [St.endW]
    · intro w hw; simp only [St.endW]; grind
  have hnd : ∀ k, (s.R k).direct = none := by
    intro k
    cases hk : (s.R k).direct with
    | none => rfl
    | some d => have := j.dirR k (by simp [hk]); omega
  refine ⟨hlen, ?_⟩
  constructor
  case fifo1 => intro k d _ hk; exact absurd hk (by simp [St.endW, hnd])
  case fifo0 =>
    rw [ht]
    intro _
    rw [← j.fifo0 (fun k _ => hnd k)]
    simp [St.endW]
  all_goals (cases j; simp only [St.endW, St.actR, St.actW] at *; grind)

theorem wakeWriter_noop {s : St} (hr : s.rq = []) (hw : s.wq = [] ∨ s.writeReady = false) :
    s.wakeWriter = s := by
  unfold St.wakeWriter
  split
  · rfl
  · rename_i w rest hq
    rcases hw with hw | hw
    · simp [hq] at hw
    · have : ({ s with asserted := s.asserted || decide (s.rq ≠ []) } : St) = s := by
        cases s; simp_all
      dsimp only
      rw [if_neg (show ¬ _ = true by simpa [St.writeReady] using hw)]
      exact this

theorem wakeReader_noop {s : St} (hr : s.wq = []) (hw : s.rq = [] ∨ s.readReady = false) :
    s.wakeReader = s := by
  unfold St.wakeReader
  split
  · rfl
  · rename_i w rest hq
    rcases hw with hw | hw
    · simp [hq] at hw
    · have : ({ s with asserted := s.asserted || decide (s.wq ≠ []) } : St) = s := by
        cases s; simp_all
      dsimp only
      rw [if_neg (show ¬ _ = true by simpa [St.readReady] using hw)]
      exact this

/-- After a pop the waiting writer, if any, is woken. -/
theorem J.wakeWriter {s : St} (h : WF s none) (j : JC s none) (hr : s.rq = [])
    (hlen : s.buf.length < s.cap) (hns : ∀ w ∈ s.wq, (s.W w).waiting = true) :
    J s.wakeWriter none := by
  cases hq : s.wq with
  | nil =>
    rw [wakeWriter_noop hr (Or.inl hq)]
    exact ⟨j, by simp [hr], by simp [hq]⟩
  | cons w rest =>
    have hw := hns w (by simp [hq])
    have hrest : rest = [] := by
      cases hrest : rest with
      | nil => rfl
      | cons x l =>
        exfalso
        have hx := hns x (by simp [hq, hrest])
        have h1 := h.wwait x hx
        have h2 := h.wwait w hw
        have := j.oneW w x (Or.inl h2.1) (Or.inl h1.1)
        have hd := h.ndW
        rw [hq, hrest] at hd
        simp [this] at hd
    have hready : s.writeReady = true := by
      have : s.buf.length ≠ s.cap := by omega
      simp [St.writeReady, this]
    have heq : s.wakeWriter = { s with wq := rest, W := upd s.W w { s.W w with waiting := false }, posted := s.posted ++ [.w w] } := by
      unfold St.wakeWriter
      rw [hq]
      have : ({ s with asserted := s.asserted || decide (s.rq ≠ []) } : St) = s := by
        cases s; simp_all
      dsimp only
      have hne : s.buf.length ≠ s.cap := by omega
      simp [St.writeReady, hne, hw, hr]
    rw [heq]
    have ht : ({ s with wq := rest, W := upd s.W w { s.W w with waiting := false }, posted := s.posted ++ [.w w] } : St).taken = s.taken :=
      taken_frame (m := []) (by simp) (by simp) (by intro k; simp only; grind)
    refine ⟨?_, by simp [hr], by simp [hrest]⟩
    constructor
    case fifo1 => rw [ht]; exact j.fifo1
    case fifo0 => rw [ht]; exact j.fifo0
    all_goals (cases j; simp only [St.actR, St.actW] at *; grind)

/-- After a push the waiting reader, if any, is woken. -/
theorem J.wakeReader {s : St} (h : WF s none) (j : JC s none) (hr : s.wq = [])
    (hlen : s.buf ≠ []) (hns : ∀ w ∈ s.rq, (s.R w).waiting = true) :
    J s.wakeReader none := by
  cases hq : s.rq with
  | nil =>
    rw [wakeReader_noop hr (Or.inl hq)]
    exact ⟨j, by simp [hq], by simp [hr]⟩
  | cons w rest =>
    have hw := hns w (by simp [hq])
    have hrest : rest = [] := by
      cases hrest : rest with
      | nil => rfl
      | cons x l =>
        exfalso
        have hx := hns x (by simp [hq, hrest])
        have h1 := h.rwait x hx
        have h2 := h.rwait w hw
        have := j.oneR w x (Or.inl h2.1) (Or.inl h1.1)
        have hd := h.ndR
        rw [hq, hrest] at hd
        simp [this] at hd
    have hready : s.readReady = true := by
      simp [St.readReady, hlen]
    have heq : s.wakeReader = { s with rq := rest, R := upd s.R w { s.R w with waiting := false }, posted := s.posted ++ [.r w] } := by
      unfold St.wakeReader
      rw [hq]
      have : ({ s with asserted := s.asserted || decide (s.wq ≠ []) } : St) = s := by
        cases s; simp_all
      dsimp only
      simp [St.readReady, hlen, hw, hr]
    rw [heq]
    have ht : ({ s with rq := rest, R := upd s.R w { s.R w with waiting := false }, posted := s.posted ++ [.r w] } : St).taken = s.taken :=
      taken_frame (m := []) (by simp) (by simp) (fun _ => ⟨rfl, rfl⟩)
    have hdir : ∀ k, (({ s with rq := rest, R := upd s.R w { s.R w with waiting := false }, posted := s.posted ++ [.r w] } : St).R k).direct = (s.R k).direct ∧
        (({ s with rq := rest, R := upd s.R w { s.R w with waiting := false }, posted := s.posted ++ [.r w] } : St).R k).status = (s.R k).status := by
      intro k; simp only; grind
    refine ⟨?_, by simp [hrest], by simp [hr]⟩
    constructor
    case fifo1 =>
      rw [ht]
      intro k d hk hd
      exact j.fifo1 k d (by unfold St.actR at hk ⊢; rw [(hdir k).2] at hk; exact hk) (by rw [← (hdir k).1]; exact hd)
    case fifo0 =>
      rw [ht]
      intro hk
      exact j.fifo0 (fun k hk' => by rw [← (hdir k).1]; exact hk k (by unfold St.actR at hk' ⊢; rw [(hdir k).2]; exact hk'))
    all_goals (clear hdir; cases j; simp only [St.actR, St.actW] at *; grind)

end Cobalt.Chan
