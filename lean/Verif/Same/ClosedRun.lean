import Verif.Same.Closed
import Verif.Same.Props
import Verif.Chan.Persist
/-!
# C135 after `close`: lemmas
-/
namespace Cobalt.Same
open Chan (upd Tok WF)

theorem close_exec {cap : Nat} {es : List Chan.Ev} (hu : (Chan.exec cap es).ub = false) :
    Chan.exec cap (es ++ [.close]) = (Chan.exec cap es).close := by
  have : (Chan.exec cap es).step .close = (Chan.exec cap es).close := by simp [Chan.St.step, hu]
  simpa [Chan.exec, Chan.St.steps] using this

theorem Emptied.quiet {c : Chan.St} (w : WF c none) (h : Emptied c) (n : NoLate c) : Quiet c.close := by
  refine ⟨h.1, fun i hi => ?_, fun j hj => ?_⟩
  · unfold Chan.St.close at hi ⊢
    dsimp only at hi ⊢
    split at hi
    · rename_i hm; rw [if_pos hm]; exact h.2 i hi
    · rename_i hm; rw [if_neg hm]; exact h.2 i hi
  · unfold Chan.St.close at hj ⊢
    dsimp only at hj ⊢
    split at hj
    · rename_i hm; rw [if_pos hm]; exact Or.inl rfl
    · rename_i hm
      rw [if_neg hm]
      right
      rcases hj with hj | hj
      · exact n j (Or.inl hj)
      · rcases w.wsusp j hj with h1 | h1 | h1
        · exact absurd (w.wwait j h1).2 hm
        · exact n j (Or.inr h1)
        · cases h1

theorem exec_append (cap : Nat) (es es' : List Chan.Ev) : Chan.exec cap (es ++ es') = (Chan.exec cap es).steps es' := by
  simp [Chan.exec, Chan.St.steps]

theorem vexec_append (l : BitVec 64) (es es' : List VChan.Ev) :
    VChan.exec l (es ++ es') = (VChan.exec l es).steps es' := by
  simp [VChan.exec, VChan.St.steps]

theorem snocInd {α : Type} {P : List α → Prop} (h0 : P []) (h1 : ∀ l a, P l → P (l ++ [a])) (l : List α) : P l := by
  have : ∀ l : List α, P l.reverse := by
    intro l
    induction l with
    | nil => exact h0
    | cons a l ih => rw [List.reverse_cons]; exact h1 _ _ ih
  simpa using this l.reverse

theorem resumeR_value {c : Chan.St} {i : Nat} (hw : c.wq = []) (hx : (c.R i).cancelled = false)
    (hv : c.buf ≠ [] ∨ (c.R i).direct ≠ none) : ∃ v, (c.resumeR i).log = c.log ++ [.doneR i (.value v)] := by
  unfold Chan.St.resumeR
  have h1 : ¬ (c.closed && decide (c.buf = []) && (c.R i).direct.isNone) = true := by
    intro h
    simp only [Bool.and_eq_true, decide_eq_true_eq, Option.isNone_iff_eq_none] at h
    rcases hv with hv | hv
    · exact hv h.1.2
    · exact hv h.2
  rw [if_neg h1, hx, if_neg (by simp)]
  split
  · rename_i h2 h3; rcases hv with hv | hv
    · exact absurd h2 hv
    · exact absurd h3 hv
  · rename_i d _ _; exact ⟨d, by rw [Chan.closed_wakeWriter (by exact hw)]; rfl⟩
  · rename_i b _ _ _; exact ⟨b, by rw [Chan.closed_wakeWriter (by exact hw)]; rfl⟩
  · rename_i b _ d _ _; exact ⟨b, by rw [Chan.closed_wakeWriter (by exact hw)]; rfl⟩

theorem vresumeR_broken {v : VChan.St} (hc : v.closed = true) (i : Nat) :
    (v.resumeR i).log = v.log ++ [.doneR i .brokenPipe] := by
  unfold VChan.St.resumeR
  rw [if_pos hc]; rfl

/-- A read of a closed channel with values gets one, a read of a closed `channel<void>` does not. -/
theorem read_differs {d : Chan.St} (du : d.ub = false) (dc : d.closed = true) (dw : d.wq = []) (hb : d.buf ≠ []) :
    ((empty d).steps ([Chan.Ev.mkR, .awaitR d.nextR false false []].map ev)).log ≠
      (d.steps [.mkR, .awaitR d.nextR false false []]).log.filterMap seen1 := by
  intro h1
  have vu : (empty d).ub = false := du
  have hx : ((d.step .mkR).R d.nextR) = { status := .fresh } := by simp [Chan.St.step, du, upd]
  have l1 : ∃ v, (d.steps [.mkR, .awaitR d.nextR false false []]).log =
      d.log ++ [.startR d.nextR, .doneR d.nextR (.value v)] := by
    show ∃ v, ((d.step .mkR).step (.awaitR d.nextR false false [])).log = _
    have e1 : d.step .mkR = { d with R := upd d.R d.nextR { status := .fresh }, nextR := d.nextR + 1 } := by
      simp [Chan.St.step, du]
    have e2 : (d.step .mkR).step (.awaitR d.nextR false false []) =
        Chan.St.resumeR { d.step .mkR with log := (d.step .mkR).log ++ [.startR d.nextR] } d.nextR := by
      have hu1 : (d.step .mkR).ub = false := by rw [e1]; exact du
      have hc1 : (d.step .mkR).closed = true := by rw [e1]; exact dc
      show (if (d.step .mkR).ub = true then _ else (d.step .mkR).awaitR d.nextR false false []) = _
      rw [hu1, if_neg (by simp), awaitR_go (by rw [hx]; simp)]
      unfold goR
      rw [if_pos (by simp [Chan.St.readReady, hc1])]
    rw [e2]
    have hl : (d.step .mkR).log = d.log := by rw [e1]
    obtain ⟨v, hv⟩ := resumeR_value (c := { d.step .mkR with log := (d.step .mkR).log ++ [.startR d.nextR] })
      (i := d.nextR) (by show (d.step .mkR).wq = []; rw [e1]; exact dw)
      (by show ((d.step .mkR).R d.nextR).cancelled = false; rw [hx])
      (Or.inl (by show (d.step .mkR).buf ≠ []; rw [e1]; exact hb))
    refine ⟨v, ?_⟩
    rw [hv]
    show (d.step .mkR).log ++ _ ++ _ = _
    rw [hl]; simp
  have l2 : ((empty d).steps ([Chan.Ev.mkR, .awaitR d.nextR false false []].map ev)).log =
      seen d.log ++ [.doneR d.nextR .brokenPipe] := by
    show (((empty d).step .mkR).step (.awaitR d.nextR false false [])).log = _
    have e1 : (empty d).step .mkR =
        { empty d with R := upd (empty d).R d.nextR { status := .fresh }, nextR := d.nextR + 1 } := by
      have e3 : (empty d).nextR = d.nextR := rfl
      simp [VChan.St.step, vu, e3]
    have hu1 : ((empty d).step .mkR).ub = false := by rw [e1]; exact du
    have hc1 : ((empty d).step .mkR).closed = true := by rw [e1]; exact dc
    have hs1 : (((empty d).step .mkR).R d.nextR).status = .fresh := by rw [e1]; simp [upd]
    have hl1 : ((empty d).step .mkR).log = seen d.log := by rw [e1]; rfl
    have e2 : ((empty d).step .mkR).step (.awaitR d.nextR false false []) =
        ((empty d).step .mkR).resumeR d.nextR := by
      show (if ((empty d).step .mkR).ub = true then _ else ((empty d).step .mkR).awaitR d.nextR false false []) = _
      rw [hu1, if_neg (by simp)]
      unfold VChan.St.awaitR
      rw [if_neg (by rw [hs1]; simp), if_pos (by simp [VChan.St.readReady, hc1])]
    rw [e2, vresumeR_broken hc1, hl1]
  obtain ⟨v, l1⟩ := l1
  rw [l1, l2] at h1
  have e4 : List.filterMap seen1 [Chan.Obs.startR d.nextR, .doneR d.nextR (.value v)] = [.doneR d.nextR .ok] := rfl
  rw [List.filterMap_append, e4] at h1
  simp [seen] at h1
/-- A write that was not stopped goes into the buffer of a closed channel. -/
theorem resumeW_late {c : Chan.St} {i : Nat} (hq : c.rq = []) (hb : c.buf = []) (hp : 0 < c.cap)
    (ha : c.asserted = false) (h1 : (c.W i).closedF = false) (h2 : (c.W i).cancelled = false)
    (h3 : (c.W i).direct = false) :
    c.resumeW i = { c.endW i .ok with buf := [i] } ∧ (empty c).resumeW i = empty { c.endW i .ok with buf := [i] } := by
  have e1 : ((empty c).W i).cancelled = (c.W i).cancelled := rfl
  have e2 : ((empty c).W i).direct = (c.W i).direct := rfl
  have e3 : ((empty c).W i).closedF = (c.W i).closedF := rfl
  have e4 : (empty c).endW i .ok = empty (c.endW i .ok) := endW_eq c i .ok
  have ep : Chan.pushBack c.cap c.buf i = [i] := by
    rw [hb]; unfold Chan.pushBack; simp; omega
  have ea : (c.asserted || decide (c.buf.length = c.cap)) = (c.endW i .ok).asserted := by
    have : ¬ c.buf.length = c.cap := by rw [hb]; simp; omega
    simp [this, Chan.St.endW]
  constructor
  · unfold Chan.St.resumeW
    rw [h1, h2, h3, if_neg (by simp), if_neg (by simp), if_neg (by simp), ep, ea]
    exact Chan.closed_wakeReader (by exact hq)
  · unfold VChan.St.resumeW
    rw [e1, e2, e3, h1, h2, h3, if_neg (by simp), if_neg (by simp), if_neg (by simp), e4]
    have e5 : ({ (empty (c.endW i .ok)) with n := (empty c).n + 1#64 } : VChan.St) =
        empty { c.endW i .ok with buf := [i] } := by
      have : (empty c).n = 0 := by show BitVec.ofNat 64 c.buf.length = 0; rw [hb]; rfl
      rw [this]; rfl
    refine Eq.trans (congrArg VChan.St.wakeReader e5) ?_
    unfold VChan.St.wakeReader
    have : (empty { c.endW i .ok with buf := [i] }).rq = [] := hq
    rw [this]

theorem run_close {cap : Nat} (h : cap < 2 ^ 64) (es : List Chan.Ev) (g : Good (Chan.exec cap es)) (es' : List Chan.Ev) :
    VChan.exec (BitVec.ofNat 64 cap) ((es ++ .close :: es').map ev) =
      (empty (Chan.exec cap es).close).steps (es'.map ev) ∧
    Chan.exec cap (es ++ .close :: es') = (Chan.exec cap es).close.steps es' := by
  have e0 := close_exec g.ub
  have ev0 : VChan.exec (BitVec.ofNat 64 cap) ((es ++ [Chan.Ev.close]).map ev) = empty (Chan.exec cap es).close := by
    rw [List.map_append, ← e0]; exact C135_close h es g
  have ea : es ++ Chan.Ev.close :: es' = (es ++ [.close]) ++ es' := by simp
  rw [ea, List.map_append, vexec_append, ev0, exec_append, e0]
  exact ⟨rfl, rfl⟩

theorem emptied_of {cap : Nat} (h : cap < 2 ^ 64) (es : List Chan.Ev) (g : Good (Chan.exec cap es))
    (hall : ∀ es', (VChan.exec (BitVec.ofNat 64 cap) ((es ++ .close :: es').map ev)).log =
      (Chan.exec cap (es ++ .close :: es')).log.filterMap seen1) : Emptied (Chan.exec cap es) := by
  have w := (Chan.reach g.ub).1
  have e0 := close_exec g.ub
  have run' := run_close h es g
  generalize hd : (Chan.exec cap es).close = d at *
  have du : d.ub = false := by rw [← hd]; exact g.ub
  have dc : d.closed = true := by rw [← hd]; rfl
  have dw : d.wq = [] := by rw [← hd]; rfl
  have dwf : WF d none := by
    rw [← e0]; exact (Chan.reach (by rw [e0]; exact du)).1
  have vu : (empty d).ub = false := du
  refine ⟨?_, ?_⟩
  · apply Classical.byContradiction
    intro hb
    have hb : d.buf ≠ [] := by rw [← hd]; exact hb
    have h1 := hall [.mkR, .awaitR d.nextR false false []]
    rw [(run' _).1, (run' _).2] at h1
    exact read_differs du dc dw hb h1
  · intro i hi
    apply Classical.byContradiction
    intro hx
    have hnq : i ∉ (Chan.exec cap es).rq := fun hm => hx (w.rlink i hm).1
    have hR : d.R i = (Chan.exec cap es).R i := by
      rw [← hd]; simp [Chan.St.close, hnq]
    have hp : Tok.r i ∈ d.posted := by
      rcases dwf.rsusp i (by rw [hR]; exact hi) with h1 | h1 | h1
      · have := (dwf.rwait i h1).2
        rw [(dwf.closedQ dc).1] at this; cases this
      · exact h1
      · cases h1
    obtain ⟨k, hk, hk2⟩ := List.mem_iff_getElem.1 hp
    have hk3 : d.posted[k]? = some (.r i) := by rw [List.getElem?_eq_getElem hk, hk2]
    have h1 := hall [.run k]
    rw [(run' _).1, (run' _).2] at h1
    have hcan : (d.R i).cancelled = false := by
      rw [hR]
      cases hdir : ((Chan.exec cap es).R i).direct with
      | none => exact absurd hdir hx
      | some v => exact w.rdir i v hdir
    have l1 : ∃ v, (d.steps [.run k]).log = d.log ++ [.doneR i (.value v)] := by
      have e1 : d.steps [.run k] = Chan.St.resumeR { d with posted := d.posted.eraseIdx k } i := by
        show d.step (.run k) = _
        show (if d.ub = true then _ else d.run k) = _
        rw [if_neg (by rw [du]; simp)]
        unfold Chan.St.run
        rw [hk3]
      rw [e1]
      exact resumeR_value (c := { d with posted := d.posted.eraseIdx k }) dw hcan
        (Or.inr (by show (d.R i).direct ≠ none; rw [hR]; exact hx))
    have l2 : ((empty d).steps ([Chan.Ev.run k].map ev)).log = seen d.log ++ [.doneR i .brokenPipe] := by
      have e1 : (empty d).steps ([Chan.Ev.run k].map ev) =
          VChan.St.resumeR { empty d with posted := d.posted.eraseIdx k } i := by
        show (empty d).step (.run k) = _
        show (if (empty d).ub = true then _ else (empty d).run k) = _
        rw [vu, if_neg (by simp)]
        unfold VChan.St.run
        have : (empty d).posted[k]? = some (.r i) := hk3
        rw [this]; rfl
      rw [e1]
      exact vresumeR_broken (v := { empty d with posted := d.posted.eraseIdx k }) dc i
    obtain ⟨v, l1⟩ := l1
    rw [l1, l2] at h1
    simp [seen, seen1, rres] at h1

end Cobalt.Same
