import Verif.Same.Run
import Verif.Chan.PropsClose
/-! Helper: the two channels after `close`. -/
namespace Cobalt.Same
open Chan (upd Tok WF TK)

/-- A closed channel without values, into which nothing will be written. -/
structure Quiet (c : Chan.St) : Prop where
  buf : c.buf = []
  rd : ∀ i, (c.R i).status = .susp → (c.R i).direct = none
  wr : ∀ j, (c.W j).status = .fresh ∨ (c.W j).status = .susp →
    (c.W j).closedF = true ∨ (c.W j).cancelled = true ∨ (c.W j).direct = true

theorem Quiet.endR {c : Chan.St} (q : Quiet c) (i : Nat) (r : Chan.RRes) : Quiet (c.endR i r) := by
  refine ⟨q.buf, fun j hj => ?_, q.wr⟩
  unfold Chan.St.endR at hj ⊢
  dsimp only [upd] at hj ⊢
  split at hj
  · cases hj
  · rename_i h; rw [if_neg h]; exact q.rd j hj

theorem Quiet.endW {c : Chan.St} (q : Quiet c) (i : Nat) (r : Chan.WRes) : Quiet (c.endW i r) := by
  refine ⟨q.buf, q.rd, fun j hj => ?_⟩
  unfold Chan.St.endW at hj ⊢
  dsimp only [upd] at hj ⊢
  split at hj
  · rcases hj with hj | hj <;> cases hj
  · rename_i h; rw [if_neg h]; exact q.wr j hj

/-- The two do the same and the channel stays quiet. -/
def Still (c : Chan.St) (v : VChan.St) : Prop := v = empty c ∧ Quiet c

theorem resumeR_still {c : Chan.St} (q : Quiet c) (hc : c.closed = true) {i : Nat} (hd : (c.R i).direct = none) :
    Still (c.resumeR i) ((empty c).resumeR i) := by
  have e1 : c.resumeR i = c.endR i .brokenPipe := by
    unfold Chan.St.resumeR
    rw [if_pos (by simp [hc, q.buf, hd])]
  have e2 : (empty c).resumeR i = (empty c).endR i .brokenPipe := by
    unfold VChan.St.resumeR
    rw [if_pos (show (empty c).closed = true from hc)]
  rw [e1, e2]
  exact ⟨endR_eq c i .brokenPipe, q.endR i _⟩

theorem resumeW_still {c : Chan.St} (q : Quiet c) (hq : c.rq = []) {i : Nat}
    (hw : (c.W i).closedF = true ∨ (c.W i).cancelled = true ∨ (c.W i).direct = true) :
    Still (c.resumeW i) ((empty c).resumeW i) := by
  have e1 : ((empty c).W i).cancelled = (c.W i).cancelled := rfl
  have e2 : ((empty c).W i).direct = (c.W i).direct := rfl
  have e3 : ((empty c).W i).closedF = (c.W i).closedF := rfl
  unfold Chan.St.resumeW VChan.St.resumeW
  rw [e1, e2, e3]
  split
  · exact ⟨endW_eq c i .brokenPipe, q.endW i _⟩
  · split
    · exact ⟨endW_eq c i .aborted, q.endW i _⟩
    · split
      · have h1 : (c.endW i .ok).wakeReader = c.endW i .ok := Chan.closed_wakeReader hq
        have h2 : ((empty c).endW i .ok).wakeReader = (empty c).endW i .ok := by
          have : ((empty c).endW i .ok).rq = [] := hq
          unfold VChan.St.wakeReader; rw [this]
        rw [h1, h2]
        exact ⟨endW_eq c i .ok, q.endW i _⟩
      · simp_all

theorem Quiet.updR {c : Chan.St} (q : Quiet c) (i : Nat) (x : Chan.ROp)
    (hx : x.status = .susp → x.direct = none) : Quiet { c with R := upd c.R i x } := by
  refine ⟨q.buf, fun j hj => ?_, q.wr⟩
  dsimp only [upd] at hj ⊢
  split
  · rename_i h; rw [if_pos h] at hj; exact hx hj
  · rename_i h; rw [if_neg h] at hj; exact q.rd j hj

theorem Quiet.updW {c : Chan.St} (q : Quiet c) (i : Nat) (x : Chan.WOp)
    (hx : x.status = .fresh ∨ x.status = .susp → x.closedF = true ∨ x.cancelled = true ∨ x.direct = true) :
    Quiet { c with W := upd c.W i x } := by
  refine ⟨q.buf, q.rd, fun j hj => ?_⟩
  dsimp only [upd] at hj ⊢
  split
  · rename_i h; rw [if_pos h] at hj; exact hx hj
  · rename_i h; rw [if_neg h] at hj; exact q.wr j hj

theorem step_still {c : Chan.St} (w : WF c none) (hc : c.closed = true) (q : Quiet c) (f : Fit c) (e : Chan.Ev) :
    Still (c.step e) ((empty c).step (ev e)) := by
  obtain ⟨hrq, hwq⟩ := w.closedQ hc
  by_cases hs : ∃ k i, e = .run k ∨ (∃ a b d, e = .awaitR i a b d) ∨ (∃ a b d, e = .awaitW i a b d) ∨ e = .intR i ∨
      e = .intW i
  · unfold Chan.St.step VChan.St.step
    have eu : (empty c).ub = c.ub := rfl
    rw [eu]
    by_cases hu : c.ub = true
    · rw [if_pos hu, if_pos hu]; exact ⟨rfl, q⟩
    rw [if_neg hu, if_neg hu]
    cases e with
    | run k =>
      show Still (c.run k) ((empty c).run k)
      unfold Chan.St.run VChan.St.run
      have ep : (empty c).posted = c.posted := rfl
      rw [ep]
      cases hp : c.posted[k]? with
      | none => exact ⟨rfl, q⟩
      | some t =>
        have hm : t ∈ c.posted := List.mem_of_getElem? hp
        have q' : Quiet { c with posted := c.posted.eraseIdx k } := ⟨q.buf, q.rd, q.wr⟩
        cases t with
        | r i => exact resumeR_still q' hc (q.rd i (w.rpost i hm).1)
        | w i => exact resumeW_still q' hrq (q.wr i (Or.inr (w.wpost i hm).1))
    | awaitR i conn txn hits =>
      show Still (c.awaitR i conn txn hits) ((empty c).awaitR i conn txn hits)
      have e1 : ((empty c).R i).status = (c.R i).status := rfl
      by_cases h1 : (c.R i).status ≠ .fresh
      · unfold Chan.St.awaitR VChan.St.awaitR
        rw [e1, if_pos h1, if_pos h1]; exact ⟨rfl, q⟩
      · have q' : Quiet { c with log := c.log ++ [Chan.Obs.startR i] } := ⟨q.buf, q.rd, q.wr⟩
        have e0 : empty c = empty { c with log := c.log ++ [Chan.Obs.startR i] } := by
          unfold empty
          simp only [seen_snoc, VChan.St.mk.injEq, true_and, and_true]
          simp [seen1]
        have e2 : c.awaitR i conn txn hits =
            Chan.St.resumeR { c with log := c.log ++ [Chan.Obs.startR i] } i := by
          rw [awaitR_go h1]
          unfold goR
          rw [if_pos (by simp [Chan.St.readReady, hc])]
        have e3 : (empty c).awaitR i conn txn hits = (empty c).resumeR i := by
          unfold VChan.St.awaitR
          rw [e1, if_neg h1, if_pos (by rw [readReady_eq f]; simp [Chan.St.readReady, hc])]
        rw [e2, e3, e0]
        exact resumeR_still q' hc (w.rfresh i (Classical.byContradiction h1))
    | awaitW i conn txn hits =>
      show Still (c.awaitW i conn txn hits) ((empty c).awaitW i conn txn hits)
      have e1 : ((empty c).W i).status = (c.W i).status := rfl
      by_cases h1 : (c.W i).status ≠ .fresh
      · unfold Chan.St.awaitW VChan.St.awaitW
        rw [e1, if_pos h1, if_pos h1]; exact ⟨rfl, q⟩
      · have q' : Quiet { c with log := c.log ++ [Chan.Obs.startW i] } := ⟨q.buf, q.rd, q.wr⟩
        have e0 : empty c = empty { c with log := c.log ++ [Chan.Obs.startW i] } := by
          unfold empty
          simp only [seen_snoc, VChan.St.mk.injEq, true_and, and_true]
          simp [seen1]
        have e2 : c.awaitW i conn txn hits =
            Chan.St.resumeW { c with log := c.log ++ [Chan.Obs.startW i] } i := by
          rw [awaitW_go h1]
          unfold goW
          rw [if_pos (by simp [Chan.St.writeReady, hc])]
        have e3 : (empty c).awaitW i conn txn hits = (empty c).resumeW i := by
          unfold VChan.St.awaitW
          rw [e1, if_neg h1, if_pos (by rw [writeReady_eq f]; simp [Chan.St.writeReady, hc])]
        rw [e2, e3, e0]
        exact resumeW_still q' hrq (q.wr i (Or.inl (Classical.byContradiction h1)))
    | intR i =>
      show Still (c.intR i) ((empty c).intR i)
      have hwt : (c.R i).waiting = false := by
        cases h : (c.R i).waiting with
        | false => rfl
        | true => have := (w.rwait i h).2; rw [hrq] at this; cases this
      have hv : ((empty c).R i).waiting = false := hwt
      have e1 : ((empty c).R i).status = (c.R i).status := rfl
      have e2 : ((empty c).R i).direct = (c.R i).direct.isSome := rfl
      unfold Chan.St.intR VChan.St.intR
      rw [e1, e2]
      split
      · exact ⟨rfl, q⟩
      · split
        · exact ⟨rfl, q⟩
        · dsimp only
          rw [hwt, hv, if_neg (by simp), if_neg (by simp)]
          refine ⟨?_, q.updR i _ (fun h => q.rd i h)⟩
          unfold empty; simp only [rop_upd]; rfl
    | intW i =>
      show Still (c.intW i) ((empty c).intW i)
      have hwt : (c.W i).waiting = false := by
        cases h : (c.W i).waiting with
        | false => rfl
        | true => have := (w.wwait i h).2; rw [hwq] at this; cases this
      have hv : ((empty c).W i).waiting = false := hwt
      have e1 : ((empty c).W i).status = (c.W i).status := rfl
      have e2 : ((empty c).W i).direct = (c.W i).direct := rfl
      unfold Chan.St.intW VChan.St.intW
      rw [e1, e2]
      split
      · exact ⟨rfl, q⟩
      · split
        · exact ⟨rfl, q⟩
        · dsimp only
          rw [hwt, hv, if_neg (by simp), if_neg (by simp)]
          refine ⟨?_, q.updW i _ (fun _ => Or.inr (Or.inl rfl))⟩
          unfold empty; simp only [wop_upd]; rfl
    | _ => exfalso; simp at hs
  · unfold Chan.St.step VChan.St.step
    have eu : (empty c).ub = c.ub := rfl
    rw [eu]
    by_cases hu : c.ub = true
    · rw [if_pos hu, if_pos hu]; exact ⟨rfl, q⟩
    rw [if_neg hu, if_neg hu]
    cases e with
    | mkR =>
      refine ⟨?_, q.buf, (q.updR c.nextR { status := .fresh } (fun h => by cases h)).rd, q.wr⟩
      unfold empty; simp only [ev, rop_upd]; rfl
    | mkW =>
      refine ⟨?_, q.buf, q.rd, (q.updW c.nextW { status := .fresh, closedF := c.closed } (fun _ => Or.inl hc)).wr⟩
      unfold empty; simp only [ev, wop_upd]; rfl
    | cancelR i =>
      show Still (c.cancelR i) ((empty c).cancelR i)
      unfold Chan.St.cancelR VChan.St.cancelR
      have e1 : ((empty c).R i).slot = (c.R i).slot := rfl
      rw [e1]
      split
      · refine ⟨?_, q.buf,
          (q.updR i { c.R i with cancelled := true, slot := false, waiting := false } (fun h => q.rd i h)).rd, q.wr⟩
        unfold empty; simp only [rop_upd]; rfl
      · exact ⟨rfl, q⟩
    | cancelW i =>
      show Still (c.cancelW i) ((empty c).cancelW i)
      unfold Chan.St.cancelW VChan.St.cancelW
      have e1 : ((empty c).W i).slot = (c.W i).slot := rfl
      rw [e1]
      split
      · refine ⟨?_, q.buf, q.rd,
          (q.updW i { c.W i with cancelled := true, slot := false, waiting := false } (fun _ => Or.inr (Or.inl rfl))).wr⟩
        unfold empty; simp only [wop_upd]; rfl
      · exact ⟨rfl, q⟩
    | dropR i =>
      show Still (c.dropR i) ((empty c).dropR i)
      unfold Chan.St.dropR VChan.St.dropR
      have e1 : ((empty c).R i).status = (c.R i).status := rfl
      rw [e1]
      split
      · refine ⟨?_, q.buf, (q.updR i { c.R i with status := .gone } (fun h => by cases h)).rd, q.wr⟩
        unfold empty; simp only [rop_upd]; rfl
      · exact ⟨rfl, q⟩
    | dropW i =>
      show Still (c.dropW i) ((empty c).dropW i)
      unfold Chan.St.dropW VChan.St.dropW
      have e1 : ((empty c).W i).status = (c.W i).status := rfl
      rw [e1]
      split
      · refine ⟨?_, q.buf, q.rd, (q.updW i { c.W i with status := .gone } (fun h => by rcases h with h | h <;> cases h)).wr⟩
        unfold empty; simp only [wop_upd]; rfl
      · exact ⟨rfl, q⟩
    | close =>
      refine ⟨close_eq c, q.buf, fun i hi => ?_, fun j hj => ?_⟩
      · simp only [Chan.St.close, hrq, List.not_mem_nil, if_false] at hi ⊢
        exact q.rd i hi
      · simp only [Chan.St.close, hwq, List.not_mem_nil, if_false] at hj ⊢
        exact q.wr j hj
    | run k => exact absurd ⟨k, 0, Or.inl rfl⟩ hs
    | awaitR i a b d => exact absurd ⟨0, i, Or.inr (Or.inl ⟨a, b, d, rfl⟩)⟩ hs
    | awaitW i a b d => exact absurd ⟨0, i, Or.inr (Or.inr (Or.inl ⟨a, b, d, rfl⟩))⟩ hs
    | intR i => exact absurd ⟨0, i, Or.inr (Or.inr (Or.inr (Or.inl rfl)))⟩ hs
    | intW i => exact absurd ⟨0, i, Or.inr (Or.inr (Or.inr (Or.inr rfl)))⟩ hs

end Cobalt.Same
