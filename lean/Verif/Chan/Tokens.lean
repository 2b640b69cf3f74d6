import Verif.Chan.Inv2
import Verif.Chan.Spec
/-! Helper: where every value is, for all executions. -/
namespace Cobalt.Chan

theorem delivered_append (a b : List Obs) : delivered (a ++ b) = delivered a ++ delivered b := by
  simp [delivered]
theorem accepted_append (a b : List Obs) : accepted (a ++ b) = accepted a ++ accepted b := by
  simp [accepted]
theorem endedR_append (a b : List Obs) : endedR (a ++ b) = endedR a ++ endedR b := by
  simp [endedR]
theorem endedW_append (a b : List Obs) : endedW (a ++ b) = endedW a ++ endedW b := by
  simp [endedW]

@[grind =] theorem mem_delivered (log : List Obs) (w : Nat) :
    w ∈ delivered log ↔ ∃ i, Obs.doneR i (.value w) ∈ log := by
  simp only [delivered, List.mem_filterMap]
  constructor
  · rintro ⟨o, ho, h⟩
    split at h <;> simp_all
    exact ⟨_, ho⟩
  · rintro ⟨i, h⟩
    exact ⟨_, h, rfl⟩

@[grind =] theorem mem_accepted (log : List Obs) (w : Nat) :
    w ∈ accepted log ↔ Obs.doneW w .ok ∈ log := by
  simp only [accepted, List.mem_filterMap]
  constructor
  · rintro ⟨o, ho, h⟩
    split at h <;> simp_all
  · intro h
    exact ⟨_, h, rfl⟩

@[grind =] theorem mem_endedR (log : List Obs) (i : Nat) :
    i ∈ endedR log ↔ ∃ res, Obs.doneR i res ∈ log := by
  simp only [endedR, List.mem_filterMap]
  constructor
  · rintro ⟨o, ho, h⟩
    split at h <;> simp_all
    exact ⟨_, ho⟩
  · rintro ⟨res, h⟩
    exact ⟨_, h, rfl⟩

@[grind =] theorem mem_endedW (log : List Obs) (i : Nat) :
    i ∈ endedW log ↔ ∃ res, Obs.doneW i res ∈ log := by
  simp only [endedW, List.mem_filterMap]
  constructor
  · rintro ⟨o, ho, h⟩
    split at h <;> simp_all
    exact ⟨_, ho⟩
  · rintro ⟨res, h⟩
    exact ⟨_, h, rfl⟩

@[simp, grind =] theorem delivered_value (log : List Obs) (i w : Nat) :
    delivered (log ++ [.doneR i (.value w)]) = delivered log ++ [w] := by simp [delivered]
@[simp, grind =] theorem delivered_fail (log : List Obs) (i : Nat) (r : RRes) (h : ∀ w, r ≠ .value w) :
    delivered (log ++ [.doneR i r]) = delivered log := by
  cases r <;> simp_all [delivered]
@[simp, grind =] theorem delivered_doneW (log : List Obs) (i : Nat) (r : WRes) :
    delivered (log ++ [.doneW i r]) = delivered log := by simp [delivered]
@[simp, grind =] theorem delivered_startR (log : List Obs) (i : Nat) :
    delivered (log ++ [.startR i]) = delivered log := by simp [delivered]
@[simp, grind =] theorem delivered_startW (log : List Obs) (i : Nat) :
    delivered (log ++ [.startW i]) = delivered log := by simp [delivered]
@[simp, grind =] theorem accepted_ok (log : List Obs) (i : Nat) :
    accepted (log ++ [.doneW i .ok]) = accepted log ++ [i] := by simp [accepted]
@[simp, grind =] theorem accepted_fail (log : List Obs) (i : Nat) (r : WRes) (h : r ≠ .ok) :
    accepted (log ++ [.doneW i r]) = accepted log := by
  cases r <;> simp_all [accepted]
@[simp, grind =] theorem accepted_doneR (log : List Obs) (i : Nat) (r : RRes) :
    accepted (log ++ [.doneR i r]) = accepted log := by simp [accepted]
@[simp, grind =] theorem accepted_startR (log : List Obs) (i : Nat) :
    accepted (log ++ [.startR i]) = accepted log := by simp [accepted]
@[simp, grind =] theorem accepted_startW (log : List Obs) (i : Nat) :
    accepted (log ++ [.startW i]) = accepted log := by simp [accepted]
@[simp, grind =] theorem endedR_doneR (log : List Obs) (i : Nat) (r : RRes) :
    endedR (log ++ [.doneR i r]) = endedR log ++ [i] := by simp [endedR]
@[simp, grind =] theorem endedR_doneW (log : List Obs) (i : Nat) (r : WRes) :
    endedR (log ++ [.doneW i r]) = endedR log := by simp [endedR]
@[simp, grind =] theorem endedR_startR (log : List Obs) (i : Nat) :
    endedR (log ++ [.startR i]) = endedR log := by simp [endedR]
@[simp, grind =] theorem endedR_startW (log : List Obs) (i : Nat) :
    endedR (log ++ [.startW i]) = endedR log := by simp [endedR]
@[simp, grind =] theorem endedW_doneW (log : List Obs) (i : Nat) (r : WRes) :
    endedW (log ++ [.doneW i r]) = endedW log ++ [i] := by simp [endedW]
@[simp, grind =] theorem endedW_doneR (log : List Obs) (i : Nat) (r : RRes) :
    endedW (log ++ [.doneR i r]) = endedW log := by simp [endedW]
@[simp, grind =] theorem endedW_startR (log : List Obs) (i : Nat) :
    endedW (log ++ [.startR i]) = endedW log := by simp [endedW]
@[simp, grind =] theorem endedW_startW (log : List Obs) (i : Nat) :
    endedW (log ++ [.startW i]) = endedW log := by simp [endedW]

/-- Where the values are. -/
structure TK (s : St) (cur : Option Tok) : Prop where
  ndD : (delivered s.log).Nodup
  ndB : s.buf.Nodup
  ndER : (endedR s.log).Nodup
  ndEW : (endedW s.log).Nodup
  bufD : ∀ w, w ∈ s.buf → w ∉ delivered s.log
  hand : ∀ i w, (s.R i).status = .susp → (s.R i).direct = some w →
    w ∉ s.buf ∧ w ∉ delivered s.log
  inj : ∀ i j w, (s.R i).direct = some w → (s.R j).direct = some w → i = j
  dirW : ∀ i w, (s.R i).direct = some w → (s.W w).direct = true
  srcB : ∀ w, w ∈ s.buf → (s.W w).direct = true ∨ Obs.doneW w .ok ∈ s.log
  srcD : ∀ w, w ∈ delivered s.log → (s.W w).direct = true ∨ Obs.doneW w .ok ∈ s.log
  endR : ∀ i res, Obs.doneR i res ∈ s.log → (s.R i).status = .done ∨ (s.R i).status = .gone
  endW : ∀ i res, Obs.doneW i res ∈ s.log → (s.W i).status = .done ∨ (s.W i).status = .gone
  dirOkW : ∀ i res, Obs.doneW i res ∈ s.log → (s.W i).direct = true → res = .ok
  dirOkR : ∀ i res d, Obs.doneR i res ∈ s.log → (s.R i).direct = some d → ∃ w, res = .value w
  noStR : ∀ i, (s.R i).status = .fresh ∨ (s.R i).status = .absent →
    Obs.startR i ∉ s.log ∨ cur = some (.r i)
  noStW : ∀ i, (s.W i).status = .fresh ∨ (s.W i).status = .absent →
    Obs.startW i ∉ s.log ∨ cur = some (.w i)
  stR : ∀ i, (s.R i).status = .susp ∨ cur = some (.r i) → Obs.startR i ∈ s.log
  stW : ∀ i, (s.W i).status = .susp ∨ cur = some (.w i) → Obs.startW i ∈ s.log
  esR : ∀ i res, Obs.doneR i res ∈ s.log → Obs.startR i ∈ s.log
  esW : ∀ i res, Obs.doneW i res ∈ s.log → Obs.startW i ∈ s.log
  dirSt : ∀ i, (s.W i).direct = true → Obs.startW i ∈ s.log
  /-- no value is lost unless an assertion failed -/
  keep : s.asserted = false → ∀ w, (s.W w).direct = true ∨ Obs.doneW w .ok ∈ s.log →
    w ∈ s.buf ∨ w ∈ delivered s.log ∨ s.inHand w

theorem TK.init (cap : Nat) : TK (St.init cap) none := by
  constructor <;> simp [St.init, delivered, endedR, endedW]

theorem nodup_snoc {l : List Nat} {x : Nat} : (l ++ [x]).Nodup ↔ l.Nodup ∧ x ∉ l := by
  rw [List.nodup_append]; simp; grind

theorem keep_mono {s s' : St} {w : Nat} (h : w ∈ s.buf ∨ w ∈ delivered s.log ∨ s.inHand w)
    (hb : w ∈ s.buf → w ∈ s'.buf ∨ w ∈ delivered s'.log)
    (hd : w ∈ delivered s.log → w ∈ delivered s'.log)
    (hh : ∀ j, (s.R j).status = .susp → (s.R j).direct = some w →
      w ∈ s'.buf ∨ w ∈ delivered s'.log ∨ ((s'.R j).status = .susp ∧ (s'.R j).direct = some w)) :
    w ∈ s'.buf ∨ w ∈ delivered s'.log ∨ s'.inHand w := by
  rcases h with h | h | ⟨j, h1, h2⟩
  · rcases hb h with h | h
    · exact Or.inl h
    · exact Or.inr (Or.inl h)
  · exact Or.inr (Or.inl (hd h))
  · rcases hh j h1 h2 with h | h | h
    · exact Or.inl h
    · exact Or.inr (Or.inl h)
    · exact Or.inr (Or.inr ⟨j, h⟩)

theorem TK.failR {s : St} {i : Nat} {res : RRes} (h : WF s (some (.r i))) (t : TK s (some (.r i)))
    (hr : ∀ w, res ≠ .value w) (hd : (s.R i).direct = none) : TK (s.endR i res) none := by
  have := h.rcur i rfl
  have he : i ∉ endedR s.log := by have := t.endR i; grind
  constructor
  case ndER => simp only [St.endR, endedR_doneR]; exact nodup_snoc.2 ⟨t.ndER, he⟩
  case keep =>
    intro ha w hw
    apply keep_mono (t.keep ha w (by simpa [St.endR] using hw)) <;> simp only [St.endR] <;> grind
  all_goals (cases t; simp only [St.endR] at *; grind)

theorem TK.failW {s : St} {i : Nat} {res : WRes} (h : WF s (some (.w i))) (t : TK s (some (.w i)))
    (hr : res ≠ .ok) (hd : (s.W i).direct = false) : TK (s.endW i res) none := by
  have := h.wcur i rfl
  have he : i ∉ endedW s.log := by have := t.endW i; grind
  constructor
  case ndEW => simp only [St.endW, endedW_doneW]; exact nodup_snoc.2 ⟨t.ndEW, he⟩
  case keep =>
    intro ha w hw
    apply keep_mono (t.keep ha w (by simp [St.endW] at hw; grind)) <;> simp only [St.endW] <;> grind
  all_goals (cases t; simp only [St.endW] at *; grind)

/-- Waking a queued operation moves no value. -/
theorem TK.wakeWriter {s : St} (t : TK s none) : TK s.wakeWriter none := by
  unfold St.wakeWriter
  split
  · exact t
  · rename_i w rest hq
    dsimp only
    split
    · split
      · constructor
        case keep =>
          intro ha w hw
          apply keep_mono (t.keep (by simp at ha; exact ha.1) w (by simp at hw; grind)) <;> simp only <;> grind
        all_goals (cases t; simp only at *; grind)
      · constructor
        case keep =>
          intro ha w hw
          apply keep_mono (t.keep (by simp at ha; exact ha.1) w (by simp at hw; grind)) <;> simp only <;> grind
        all_goals (cases t; simp only at *; grind)
    · constructor
      case keep =>
        intro ha w hw
        apply keep_mono (t.keep (by simp at ha; exact ha.1) w (by simp at hw; grind)) <;> simp only <;> grind
      all_goals (cases t; simp only at *; grind)

theorem TK.wakeReader {s : St} (t : TK s none) : TK s.wakeReader none := by
  unfold St.wakeReader
  split
  · exact t
  · rename_i w rest hq
    dsimp only
    split
    · split
      · constructor
        case keep =>
          intro ha w hw
          apply keep_mono (t.keep (by simp at ha; exact ha.1) w (by simp at hw; grind)) <;> simp only <;> grind
        all_goals (cases t; simp only at *; grind)
      · constructor
        case keep =>
          intro ha w hw
          apply keep_mono (t.keep (by simp at ha; exact ha.1) w (by simp at hw; grind)) <;> simp only <;> grind
        all_goals (cases t; simp only at *; grind)
    · constructor
      case keep =>
        intro ha w hw
        apply keep_mono (t.keep (by simp at ha; exact ha.1) w (by simp at hw; grind)) <;> simp only <;> grind
      all_goals (cases t; simp only at *; grind)

theorem pushBack_lt {cap : Nat} {buf : List Nat} (x : Nat) (h : buf.length < cap) :
    pushBack cap buf x = buf ++ [x] := by
  unfold pushBack
  rw [if_neg (by omega), if_neg (by omega)]

theorem mem_pushBack {cap : Nat} {buf : List Nat} {x y : Nat} (h : y ∈ pushBack cap buf x) :
    y ∈ buf ∨ y = x := by
  unfold pushBack at h
  split at h
  · exact Or.inl h
  · split at h
    · rcases List.mem_append.1 h with h | h
      · exact Or.inl (List.mem_of_mem_tail h)
      · right; simpa using h
    · rcases List.mem_append.1 h with h | h
      · exact Or.inl h
      · right; simpa using h

theorem nodup_pushBack {cap : Nat} {buf : List Nat} {x : Nat} (h : buf.Nodup) (hx : x ∉ buf) :
    (pushBack cap buf x).Nodup := by
  unfold pushBack
  split
  · exact h
  · split
    · exact nodup_snoc.2 ⟨h.sublist (List.tail_sublist _), fun hm => hx (List.mem_of_mem_tail hm)⟩
    · exact nodup_snoc.2 ⟨h, hx⟩

theorem TK.valDirect {s : St} {i d : Nat} (h : WF s (some (.r i))) (t : TK s (some (.r i)))
    (hs : (s.R i).direct = some d) (hb : s.buf = []) : TK (s.endR i (.value d)) none := by
  have := h.rcur i rfl
  have hsu : (s.R i).status = .susp := by have := h.rfresh i; grind
  have he : i ∉ endedR s.log := by have := t.endR i; grind
  have hh := t.hand i d hsu hs
  constructor
  case ndER => simp only [St.endR, endedR_doneR]; exact nodup_snoc.2 ⟨t.ndER, he⟩
  case ndD => simp only [St.endR, delivered_value]; exact nodup_snoc.2 ⟨t.ndD, hh.2⟩
  case keep =>
    intro ha w hw
    apply keep_mono (t.keep ha w (by simpa [St.endR] using hw)) <;> simp only [St.endR] <;> grind
  all_goals (cases t; simp only [St.endR] at *; grind)

theorem TK.valFront {s : St} {i b : Nat} {bs : List Nat} (h : WF s (some (.r i)))
    (t : TK s (some (.r i))) (hs : (s.R i).direct = none) (hb : s.buf = b :: bs) :
    TK { s.endR i (.value b) with buf := bs } none := by
  have := h.rcur i rfl
  have he : i ∉ endedR s.log := by have := t.endR i; grind
  have hh := t.bufD b (by simp [hb])
  have hn : b ∉ bs ∧ bs.Nodup := by have := t.ndB; rw [hb] at this; simpa using this
  constructor
  case ndER => simp only [St.endR, endedR_doneR]; exact nodup_snoc.2 ⟨t.ndER, he⟩
  case ndD => simp only [St.endR, delivered_value]; exact nodup_snoc.2 ⟨t.ndD, hh⟩
  case keep =>
    intro ha w hw
    apply keep_mono (t.keep ha w (by simpa [St.endR] using hw)) <;> simp only [St.endR] <;> grind
  all_goals (cases t; simp only [St.endR] at *; grind)

theorem TK.valBoth {s : St} {i b d : Nat} {bs : List Nat} (h : WF s (some (.r i)))
    (t : TK s (some (.r i))) (hs : (s.R i).direct = some d) (hb : s.buf = b :: bs) :
    TK { s.endR i (.value b) with buf := pushBack s.cap bs d } none := by
  rw [pushBack_lt d (by have := h.len; rw [hb] at this; simp at this; omega)]
  have := h.rcur i rfl
  have hsu : (s.R i).status = .susp := by have := h.rfresh i; grind
  have he : i ∉ endedR s.log := by have := t.endR i; grind
  have hd := t.hand i d hsu hs
  have hh := t.bufD b (by simp [hb])
  have hn : b ∉ bs ∧ bs.Nodup := by have := t.ndB; rw [hb] at this; simpa using this
  have hdb : d ∉ bs ∧ d ≠ b := by rw [hb] at hd; simp at hd; grind
  constructor
  case ndER => simp only [St.endR, endedR_doneR]; exact nodup_snoc.2 ⟨t.ndER, he⟩
  case ndD => simp only [St.endR, delivered_value]; exact nodup_snoc.2 ⟨t.ndD, hh⟩
  case ndB => exact nodup_snoc.2 ⟨hn.2, hdb.1⟩
  case keep =>
    intro ha w hw
    apply keep_mono (t.keep ha w (by simpa [St.endR] using hw)) <;> simp only [St.endR] <;> grind
  all_goals (cases t; simp only [St.endR] at *; grind)

theorem TK.okDirect {s : St} {i : Nat} (h : WF s (some (.w i)))
    (t : TK s (some (.w i))) (hs : (s.W i).direct = true) : TK (s.endW i .ok) none := by
  have := h.wcur i rfl
  have he : i ∉ endedW s.log := by have := t.endW i; grind
  constructor
  case ndEW => simp only [St.endW, endedW_doneW]; exact nodup_snoc.2 ⟨t.ndEW, he⟩
  case keep =>
    intro ha w hw
    apply keep_mono (t.keep ha w (by simp [St.endW] at hw; grind)) <;> simp only [St.endW] <;> grind
  all_goals (cases t; simp only [St.endW] at *; grind)

theorem TK.okPush {s : St} {i : Nat} (h : WF s (some (.w i)))
    (t : TK s (some (.w i))) (hs : (s.W i).direct = false) :
    TK { s.endW i .ok with buf := pushBack s.cap s.buf i,
                           asserted := s.asserted || decide (s.buf.length = s.cap) } none := by
  have := h.wcur i rfl
  have hne : ∀ res, Obs.doneW i res ∉ s.log := by
    intro res hm; have := t.endW i res hm; grind
  have he : i ∉ endedW s.log := by grind
  have hib : i ∉ s.buf := by have := t.srcB i; have := hne .ok; grind
  have hid : i ∉ delivered s.log := by have := t.srcD i; have := hne .ok; grind
  have hih : ∀ j, (s.R j).direct ≠ some i := by intro j hj; have := t.dirW j i hj; grind
  have hm : ∀ y, y ∈ pushBack s.cap s.buf i → y ∈ s.buf ∨ y = i := fun y => mem_pushBack
  constructor
  case ndEW => simp only [St.endW, endedW_doneW]; exact nodup_snoc.2 ⟨t.ndEW, he⟩
  case ndB => exact nodup_pushBack t.ndB hib
  case keep =>
    intro ha w hw
    simp only [Bool.or_eq_false_iff, decide_eq_false_iff_not] at ha
    have hp : pushBack s.cap s.buf i = s.buf ++ [i] :=
      pushBack_lt i (by have := h.len; omega)
    by_cases hwi : w = i
    · left; simp [hwi, hp]
    · apply keep_mono (t.keep ha.1 w (by simp [St.endW] at hw; grind)) <;> simp only [St.endW] <;> grind
  all_goals (cases t; simp only [St.endW] at *; grind)

theorem TK.resumeR {s : St} {i : Nat} (h : WF s (some (.r i))) (t : TK s (some (.r i))) :
    (s.resumeR i).ub = true ∨ TK (s.resumeR i) none := by
  unfold St.resumeR
  split
  · rename_i hc
    simp at hc
    exact Or.inr (t.failR h (by simp) hc.2)
  · split
    · rename_i hc
      refine Or.inr (t.failR h (by simp) ?_)
      have := h.rdir i
      cases hd : (s.R i).direct with
      | none => rfl
      | some d => have := this d hd; simp_all
    · split
      · left; rfl
      · rename_i hb hd
        exact Or.inr (t.valDirect h hd hb).wakeWriter
      · rename_i hb hd
        exact Or.inr (t.valFront h hd hb).wakeWriter
      · rename_i hb hd
        exact Or.inr (t.valBoth h hd hb).wakeWriter

theorem TK.resumeW {s : St} {i : Nat} (h : WF s (some (.w i))) (t : TK s (some (.w i))) :
    TK (s.resumeW i) none := by
  unfold St.resumeW
  have := h.wdir i
  split
  · exact t.failW h (by simp) (by grind)
  · split
    · exact t.failW h (by simp) (by grind)
    · split
      · rename_i hd
        exact (t.okDirect h hd).wakeReader
      · rename_i hd
        exact (t.okPush h (by simpa using hd)).wakeReader

theorem TK.intR {s : St} {cur : Option Tok} (h : WF s cur) (t : TK s cur) (i : Nat) :
    TK (s.intR i) cur := by
  rw [intR_eq]
  split
  · exact t
  · rename_i hx
    have hd : (s.R i).direct = none := by
      cases hd : (s.R i).direct <;> simp_all
    split
    · have hw := h.rwait i
      have hc := h.rcur i
      have he : i ∉ endedR s.log := by have := t.endR i; grind
      generalize hres : (if (s.closed && decide (s.buf = [])) = true then RRes.brokenPipe else RRes.aborted) = res
      have hr : ∀ w, res ≠ .value w := by intro w; subst hres; split <;> simp
      clear hres
      constructor
      case ndER => simp only [St.endR, endedR_doneR]; exact nodup_snoc.2 ⟨t.ndER, he⟩
      case keep =>
        intro ha w hw
        apply keep_mono (t.keep ha w (by simpa [St.endR] using hw)) <;> simp only [St.endR] <;> grind
      all_goals (cases t; simp only [St.endR] at *; grind)
    · constructor
      case keep =>
        intro ha w hw
        apply keep_mono (t.keep ha w hw) <;> simp only <;> grind
      all_goals (cases t; simp only at *; grind)

theorem TK.intW {s : St} {cur : Option Tok} (h : WF s cur) (t : TK s cur) (i : Nat) :
    TK (s.intW i) cur := by
  rw [intW_eq]
  split
  · exact t
  · rename_i hx
    have hd : (s.W i).direct = false := by
      cases hd : (s.W i).direct <;> simp_all
    split
    · have hw := h.wwait i
      have hc := h.wcur i
      have he : i ∉ endedW s.log := by have := t.endW i; grind
      generalize hres : (if (s.W i).closedF = true then WRes.brokenPipe else WRes.aborted) = res
      have hr : res ≠ .ok := by subst hres; split <;> simp
      clear hres
      constructor
      case ndEW => simp only [St.endW, endedW_doneW]; exact nodup_snoc.2 ⟨t.ndEW, he⟩
      case keep =>
        intro ha w hw
        apply keep_mono (t.keep ha w (by simp [St.endW] at hw; grind)) <;> simp only [St.endW] <;> grind
      all_goals (cases t; simp only [St.endW] at *; grind)
    · constructor
      case keep =>
        intro ha w hw
        apply keep_mono (t.keep ha w (by simp at hw; grind)) <;> simp only <;> grind
      all_goals (cases t; simp only at *; grind)

theorem TK.int {s : St} {cur : Option Tok} (h : WF s cur) (t : TK s cur) (x : Tok) :
    TK (s.int x) cur := by
  cases x
  · exact t.intR h _
  · exact t.intW h _

theorem TK.hits {s : St} {cur : Option Tok} (h : WF s cur) (t : TK s cur) (ts : List Tok) :
    TK (ts.foldl St.int s) cur := by
  induction ts generalizing s with
  | nil => exact t
  | cons x ts ih => exact ih (h.int x) (t.int h x)

/-- Awaiting a fresh read operation: the start is logged and the operation is in hand. -/
theorem TK.startR {s : St} {i : Nat} (t : TK s none) :
    TK { s with log := s.log ++ [.startR i] } (some (.r i)) := by
  constructor
  case keep =>
    intro ha w hw
    apply keep_mono (t.keep ha w (by simp at hw; grind)) <;> simp only <;> grind
  all_goals (cases t; simp only at *; grind)

theorem TK.startW {s : St} {i : Nat} (t : TK s none) :
    TK { s with log := s.log ++ [.startW i] } (some (.w i)) := by
  constructor
  case keep =>
    intro ha w hw
    apply keep_mono (t.keep ha w (by simp at hw; grind)) <;> simp only <;> grind
  all_goals (cases t; simp only at *; grind)

theorem TK.queueR {s : St} {i : Nat} (h : WF s none) (t : TK s (some (.r i))) (conn txn : Bool)
    (hf : (s.R i).status = .fresh) : TK (s.queueR i conn txn) none := by
  have := h.rfresh i hf
  constructor
  case keep =>
    intro ha w hw
    apply keep_mono (t.keep ha w (by simp [St.queueR] at hw; grind)) <;> simp only [St.queueR] <;> grind
  all_goals (cases t; simp only [St.queueR] at *; grind)

theorem TK.queueW {s : St} {i : Nat} (h : WF s none) (t : TK s (some (.w i))) (conn txn : Bool)
    (hf : (s.W i).status = .fresh) : TK (s.queueW i conn txn) none := by
  have := h.wfresh i hf
  constructor
  case keep =>
    intro ha w hw
    apply keep_mono (t.keep ha w (by simp [St.queueW] at hw; grind)) <;> simp only [St.queueW] <;> grind
  all_goals (cases t; simp only [St.queueW] at *; grind)

theorem TK.handR {s : St} {i w : Nat} (h : WF s none) (t : TK s (some (.r i))) (txn : Bool)
    (hf : (s.R i).status = .fresh) (hw : (s.W w).waiting = true) :
    TK ((s.takeFrom i w txn).handR i w) (some (.w w)) := by
  have h1 := h.rfresh i hf
  have h2 := h.wwait w hw
  have h3 := h.wlink w h2.2
  have hne : ∀ res, Obs.doneW w res ∉ s.log := by
    intro res hm; have := t.endW w res hm; grind
  have hib : w ∉ s.buf := by have := t.srcB w; have := hne .ok; grind
  have hid : w ∉ delivered s.log := by have := t.srcD w; have := hne .ok; grind
  have hih : ∀ j, (s.R j).direct ≠ some w := by intro j hj; have := t.dirW j w hj; grind
  have hst : Obs.startW w ∈ s.log := t.stW w (Or.inl h2.1)
  constructor
  case keep =>
    intro ha v hv
    by_cases hvw : v = w
    · right; right
      exact ⟨i, by simp [St.takeFrom, St.handR, upd_apply], by simp [St.takeFrom, St.handR, upd_apply, hvw]⟩
    · apply keep_mono (t.keep ha v (by simp [St.takeFrom, St.handR] at hv; grind)) <;>
        simp only [St.takeFrom, St.handR] <;> grind
  all_goals (cases t; simp only [St.takeFrom, St.handR] at *; grind)

theorem TK.handW {s : St} {i j : Nat} (h : WF s none) (t : TK s (some (.w i))) (txn : Bool)
    (hf : (s.W i).status = .fresh) (hw : (s.R j).waiting = true) :
    TK ((s.giveTo i j txn).handW i j) (some (.r j)) := by
  have h1 := h.wfresh i hf
  have h2 := h.rwait j hw
  have h3 := h.rlink j h2.2
  have hne : ∀ res, Obs.doneW i res ∉ s.log := by
    intro res hm; have := t.endW i res hm; grind
  have hib : i ∉ s.buf := by have := t.srcB i; have := hne .ok; grind
  have hid : i ∉ delivered s.log := by have := t.srcD i; have := hne .ok; grind
  have hih : ∀ j, (s.R j).direct ≠ some i := by intro j hj; have := t.dirW j i hj; grind
  have hst : Obs.startR j ∈ s.log := t.stR j (Or.inl h2.1)
  constructor
  case keep =>
    intro ha v hv
    by_cases hvw : v = i
    · right; right
      exact ⟨j, by simp [St.giveTo, St.handW, upd_apply, h2.1], by simp [St.giveTo, St.handW, upd_apply, hvw]⟩
    · apply keep_mono (t.keep ha v (by simp [St.giveTo, St.handW] at hv; grind)) <;>
        simp only [St.giveTo, St.handW] <;> grind
  all_goals (cases t; simp only [St.giveTo, St.handW] at *; grind)

/-- Steps that touch neither the buffer nor the log, nor who holds a value. -/
theorem TK.frame {s s' : St} (t : TK s none) (hl : s'.log = s.log) (hb : s'.buf = s.buf)
    (ha : s'.asserted = s.asserted)
    (hR : ∀ i, (s'.R i).status = (s.R i).status ∧ (s'.R i).direct = (s.R i).direct)
    (hW : ∀ i, (s'.W i).status = (s.W i).status ∧ (s'.W i).direct = (s.W i).direct) :
    TK s' none := by
  constructor
  case keep =>
    intro ha w hw
    apply keep_mono (t.keep (by grind) w (by grind)) <;> grind
  all_goals (cases t; simp only [hl, hb] at *; grind)

theorem TK.unpost {s : St} {k : Nat} {x : Tok} (h : WF s none) (t : TK s none)
    (hk : s.posted[k]? = some x) :
    TK { s with posted := s.posted.eraseIdx k } (some x) := by
  have hin : x ∈ s.posted := List.mem_of_getElem? hk
  have hr := h.rpost
  have hw := h.wpost
  constructor
  case keep => exact t.keep
  all_goals (cases t; simp only at *; grind)

theorem TK.mkR {s : St} (h : WF s none) (t : TK s none) :
    TK { s with R := upd s.R s.nextR { status := .fresh }, nextR := s.nextR + 1 } none := by
  have h1 := h.rnew s.nextR (Nat.le_refl _)
  constructor
  case keep =>
    intro ha w hw
    apply keep_mono (t.keep ha w (by simpa using hw)) <;> simp only <;> grind
  all_goals (cases t; simp only at *; grind)

theorem TK.mkW {s : St} (h : WF s none) (t : TK s none) :
    TK { s with W := upd s.W s.nextW { status := .fresh, closedF := s.closed }, nextW := s.nextW + 1 } none := by
  have h1 := h.wnew s.nextW (Nat.le_refl _)
  have hs : (s.W s.nextW).status = .absent := by rw [h1]
  have hd : (s.W s.nextW).direct = false := by rw [h1]
  have hne : ∀ res, Obs.doneW s.nextW res ∉ s.log := by
    intro res hm; have := t.endW _ res hm; grind
  constructor
  case keep =>
    intro ha w hw
    apply keep_mono (t.keep ha w (by simp at hw; grind)) <;> simp only <;> grind
  all_goals (cases t; simp only at *; grind)

theorem TK.dropR {s : St} (t : TK s none) (i : Nat) : TK (s.dropR i) none := by
  unfold St.dropR
  split
  · constructor
    case keep =>
      intro ha w hw
      apply keep_mono (t.keep ha w (by simp at hw; grind)) <;> simp only <;> grind
    all_goals (cases t; simp only at *; grind)
  · exact t

theorem TK.dropW {s : St} (t : TK s none) (i : Nat) : TK (s.dropW i) none := by
  unfold St.dropW
  split
  · constructor
    case keep =>
      intro ha w hw
      apply keep_mono (t.keep ha w (by simp at hw; grind)) <;> simp only <;> grind
    all_goals (cases t; simp only at *; grind)
  · exact t

theorem TK.awaitR {s : St} (h : WF s none) (t : TK s none) (i : Nat) (conn txn : Bool)
    (hits : List Tok) : (s.awaitR i conn txn hits).ub = true ∨ TK (s.awaitR i conn txn hits) none := by
  rw [awaitR_eq]
  split
  · exact Or.inr t
  · rename_i hf
    simp only [ne_eq, Decidable.not_not] at hf
    have hl := h.logged (s.log ++ [Obs.startR i])
    have ht := t.startR (i := i)
    dsimp only
    split
    · exact ht.resumeR (hl.grabR hf)
    · rename_i hn
      simp only [St.readReady, not_or, Bool.not_eq_true, Bool.or_eq_false_iff] at hn
      split
      · exact Or.inr (ht.queueR hl conn txn hf)
      · rename_i w rest hq
        split
        · rename_i hw
          have hw1 := hl.handR txn hf hn.2 hq hw
          exact Or.inr ((((ht.handR hl txn hf hw).hits hw1 _).resumeW (hw1.hits _)))
        · exact Or.inl rfl

theorem TK.awaitW {s : St} (h : WF s none) (t : TK s none) (i : Nat) (conn txn : Bool)
    (hits : List Tok) : (s.awaitW i conn txn hits).ub = true ∨ TK (s.awaitW i conn txn hits) none := by
  rw [awaitW_eq]
  split
  · exact Or.inr t
  · rename_i hf
    simp only [ne_eq, Decidable.not_not] at hf
    have hl := h.logged (s.log ++ [Obs.startW i])
    have ht := t.startW (i := i)
    dsimp only
    split
    · exact Or.inr (ht.resumeW (hl.grabW hf))
    · rename_i hn
      simp only [St.writeReady, not_or, Bool.not_eq_true, Bool.or_eq_false_iff] at hn
      have hk : (s.W i).closedF = false := by
        have := h.wclosed i
        have := hn.1.2
        grind
      split
      · exact Or.inr (ht.queueW hl conn txn hf)
      · rename_i w rest hq
        split
        · rename_i hw
          have hw1 := hl.handW txn hf hn.2 hk hq hw
          exact (((ht.handW hl txn hf hw).hits hw1 _).resumeR (hw1.hits _))
        · exact Or.inl rfl

theorem TK.step {s : St} (h : WF s none) (t : TK s none) (e : Ev) :
    (s.step e).ub = true ∨ TK (s.step e) none := by
  by_cases hu : s.ub = true
  · left; simp [St.step, hu]
  · have hu' : s.ub = false := by simpa using hu
    cases e with
    | mkR => right; simpa [St.step, hu'] using t.mkR h
    | mkW => right; simpa [St.step, hu'] using t.mkW h
    | awaitR i c x l => simpa [St.step, hu] using t.awaitR h i c x l
    | awaitW i c x l => simpa [St.step, hu] using t.awaitW h i c x l
    | run k =>
      simp only [St.step, hu', Bool.false_eq_true, if_false]
      unfold St.run
      split
      · exact Or.inr t
      · rename_i i hk
        exact (t.unpost h hk).resumeR (h.unpost hk)
      · rename_i i hk
        exact Or.inr ((t.unpost h hk).resumeW (h.unpost hk))
    | cancelR i =>
      right; simp only [St.step, hu', Bool.false_eq_true, if_false]; unfold St.cancelR
      split
      · apply t.frame <;> first | rfl | (intro j; simp only; grind)
      · exact t
    | cancelW i =>
      right; simp only [St.step, hu', Bool.false_eq_true, if_false]; unfold St.cancelW
      split
      · apply t.frame <;> first | rfl | (intro j; simp only; grind)
      · exact t
    | intR i => right; simpa [St.step, hu] using t.intR h i
    | intW i => right; simpa [St.step, hu] using t.intW h i
    | dropR i => right; simpa [St.step, hu] using t.dropR i
    | dropW i => right; simpa [St.step, hu] using t.dropW i
    | close =>
      right; simp only [St.step, hu', Bool.false_eq_true, if_false]; unfold St.close
      apply t.frame <;> first | rfl | (intro j; simp only; grind)

theorem exec_inv (cap : Nat) (es : List Ev) :
    (exec cap es).ub = true ∨ (WF (exec cap es) none ∧ TK (exec cap es) none) := by
  apply exec_induction cap (P := fun s => s.ub = true ∨ (WF s none ∧ TK s none))
  · exact Or.inr ⟨WF.init cap, TK.init cap⟩
  · intro s e h
    rcases h with h | ⟨h, t⟩
    · left; simp [St.step, h]
    · rcases h.step e with h1 | h1
      · exact Or.inl h1
      · rcases t.step h e with h2 | h2
        · exact Or.inl h2
        · exact Or.inr ⟨h1, h2⟩

end Cobalt.Chan
