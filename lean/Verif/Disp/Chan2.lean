import Verif.Disp.Chan
/-! The read of the dispatcher ends. -/
namespace Cobalt.Disp
open Cobalt.Comb (Out)
open Cobalt.Chan (WF TK Obs Tok delivered upd)

/-- The read has ended and is destroyed. -/
theorem CI.drop {c : Chan.St} {rd : Nat} (h : CI c) (hs : (c.R rd).status = .done)
    (hn : ∀ i, i ≠ rd → (c.R i).status ≠ .susp) (hq : c.rq.erase rd = []) :
    CI (c.step (.dropR rd)) ∧ Free (c.step (.dropR rd)) ∧ (c.step (.dropR rd)).log = c.log := by
  have e : c.step (.dropR rd) = { c with R := upd c.R rd { c.R rd with status := .gone }, rq := c.rq.erase rd } := by
    simp [Chan.St.step, h.ub, Chan.St.dropR, hs]
  refine ⟨h.step (by rw [e]; exact h.ub) (by rw [e]; exact h.opn) (by rw [e]; exact h.wst), ?_, by rw [e]⟩
  rw [e]
  refine ⟨hq, ?_⟩
  intro i
  simp only [upd]
  split
  · simp
  · exact hn i ‹_›

/-- A read that was not awaited is destroyed. -/
theorem CI.unused {c : Chan.St} {rd : Nat} (h : CI c) (n : New c rd) :
    CI (c.step (.dropR rd)) ∧ Free (c.step (.dropR rd)) ∧ (c.step (.dropR rd)).log = c.log := by
  have e : c.step (.dropR rd) = { c with R := upd c.R rd { c.R rd with status := .gone }, rq := c.rq.erase rd } := by
    simp [Chan.St.step, h.ub, Chan.St.dropR, n.fresh]
  refine ⟨h.step (by rw [e]; exact h.ub) (by rw [e]; exact h.opn) (by rw [e]; exact h.wst), ?_, by rw [e]⟩
  rw [e]
  refine ⟨by simp [n.rq], ?_⟩
  intro i
  simp only [upd]
  split
  · simp
  · exact n.no i

/-- A cancelled read ends with an error. -/
theorem resC {ch : Chan.St} {i : Nat} (ho : ch.closed = false) (hc : (ch.R i).cancelled = true) :
    ch.resumeR i = ch.endR i .aborted := by
  simp [Chan.St.resumeR, ho, hc]

/-- The read in the queue is interrupted. -/
theorem CI.intQ {ch : Chan.St} {rd : Nat} (h : CI ch) (q : Queued ch rd) :
    readOut (ch.step (.intR rd)) rd = some (.err 1) ∧ CI ((ch.step (.intR rd)).step (.dropR rd)) ∧
    Free ((ch.step (.intR rd)).step (.dropR rd)) ∧
    delivered ((ch.step (.intR rd)).step (.dropR rd)).log = delivered ch.log := by
  have hd := (h.wf.rlink rd (by simp [q.rq])).1
  have e : ch.step (.intR rd) = { ch with
      R := upd (upd ch.R rd { ch.R rd with cancelled := true }) rd { ch.R rd with cancelled := true, status := .done, slot := false, waiting := false }
      log := ch.log ++ [.doneR rd .aborted] } := by
    simp only [Chan.St.step, h.ub, Chan.St.intR, q.susp, hd, q.wait]
    simp only [Bool.false_eq_true, if_false, reduceCtorEq, or_self, Option.isSome_none, if_true]
    rw [resC (by exact h.opn) (by simp [upd])]
    simp [Chan.St.endR, upd, hd]
  have hc : CI (ch.step (.intR rd)) := h.step (by rw [e]; exact h.ub) (by rw [e]; exact h.opn) (by rw [e]; exact h.wst)
  obtain ⟨h1, h2, h3⟩ := hc.drop (rd := rd) (by rw [e]; simp [upd])
    (by rw [e]; intro i hi; simp only [upd, if_neg hi]; intro h'; exact hi (q.only i h')) (by rw [e]; simp [q.rq])
  refine ⟨?_, h1, h2, by rw [h3, e]; simp [delivered]⟩
  refine readOut_snoc (ch := ch) (l := []) (res := .aborted) ?_ (by simp) (by rw [e]; simp)
  exact readOut_none h (by simp [q.susp]) (by simp [q.susp])

/-- The read that was handed a value is not interrupted and not cancelled. -/
theorem CI.intD {ch : Chan.St} {rd w : Nat} (h : CI ch) (q : Post ch rd (some w) false) :
    ch.step (.intR rd) = ch ∧ ch.step (.cancelR rd) = ch := by
  constructor
  · simp [Chan.St.step, h.ub, Chan.St.intR, q.susp, q.hd]
  · have : (ch.R rd).slot = false := by
      rcases hs : (ch.R rd).slot with _ | _
      · rfl
      · have := (h.wf.rslot rd hs).2; simp [q.hd] at this
    simp [Chan.St.step, h.ub, Chan.St.cancelR, this]

/-- The read that was woken is interrupted and cancelled. -/
theorem CI.intP {ch : Chan.St} {rd : Nat} (h : CI ch) (q : Post ch rd none false) :
    readOut (ch.step (.intR rd)) rd = none ∧ CI ((ch.step (.intR rd)).step (.cancelR rd)) ∧
    Post ((ch.step (.intR rd)).step (.cancelR rd)) rd none true ∧
    delivered ((ch.step (.intR rd)).step (.cancelR rd)).log = delivered ch.log := by
  have e : ch.step (.intR rd) = { ch with R := upd ch.R rd { ch.R rd with cancelled := true } } := by
    simp [Chan.St.step, h.ub, Chan.St.intR, q.susp, q.hd, q.wait]
  have hc : CI (ch.step (.intR rd)) := h.step (by rw [e]; exact h.ub) (by rw [e]; exact h.opn) (by rw [e]; exact h.wst)
  refine ⟨readOut_none hc (by rw [e]; simp [upd, q.susp]) (by rw [e]; simp [upd, q.susp]), ?_⟩
  have p : Post (ch.step (.intR rd)) rd none true := by
    rw [e]
    refine ⟨q.rq, ?_, ?_, ?_, ?_, ?_, ?_, ?_⟩
    · intro i; simp only [upd]; split
      · intro; assumption
      · exact q.only i
    · simp [upd, q.susp]
    · simp [upd, q.wait]
    · simp [upd, q.hd]
    · simp [upd]
    · simp
    · simp
  have hl : (ch.step (.intR rd)).log = ch.log := by rw [e]
  generalize ch.step (.intR rd) = c at *
  rcases hs : (c.R rd).slot with _ | _
  · have : c.step (.cancelR rd) = c := by simp [Chan.St.step, hc.ub, Chan.St.cancelR, hs]
    rw [this]
    exact ⟨hc, p, by rw [hl]⟩
  · have e' : c.step (.cancelR rd) = { c with R := upd c.R rd { c.R rd with slot := false } } := by
      simp [Chan.St.step, hc.ub, Chan.St.cancelR, hs, p.wait, p.rq, p.hc]
    refine ⟨hc.step (by rw [e']; exact hc.ub) (by rw [e']; exact hc.opn) (by rw [e']; exact hc.wst), ?_, by rw [e', ← hl]⟩
    rw [e']
    refine ⟨p.rq, ?_, ?_, ?_, ?_, ?_, ?_, ?_⟩
    · intro i; simp only [upd]; split
      · intro; assumption
      · exact p.only i
    · simp [upd, p.susp]
    · simp [upd, p.wait]
    · simp [upd, p.hd]
    · simp [upd, p.hc]
    · simp
    · simp

/-- The executor resumes the read. -/
theorem CI.runV {ch : Chan.St} {rd k i : Nat} {dir : Option Nat} (h : CI ch) (q : Post ch rd dir false)
    (hk : ch.posted[k]? = some (.r i)) :
    ∃ v, readOut (ch.step (.run k)) rd = some (.ok v) ∧ CI ((ch.step (.run k)).step (.dropR rd)) ∧
    Free ((ch.step (.run k)).step (.dropR rd)) ∧
    delivered ((ch.step (.run k)).step (.dropR rd)).log = delivered ch.log ++ [v] := by
  obtain rfl : i = rd := q.only i (h.wf.rpost i (List.mem_of_getElem? hk)).1
  have e : ch.step (.run k) = ({ ch with posted := ch.posted.eraseIdx k } : Chan.St).resumeR i := by
    simp [Chan.St.step, h.ub, Chan.St.run, hk]
  obtain ⟨v, h1, h2, h3, h4, h5, h6⟩ := resR (ch := { ch with posted := ch.posted.eraseIdx k }) (i := i) h.ub h.opn q.hc
    (by cases hd : dir with
        | none => exact Or.inl (q.buf rfl hd)
        | some d => right; simp [q.hd, hd]) h.wf.ndW h.wst
  rw [← e] at h1 h2 h3 h4 h5 h6
  have hc := h.step h2 h3 h6
  obtain ⟨k1, k2, k3⟩ := hc.drop (rd := i) (by rw [h5]; simp [upd])
    (by rw [h5]; intro j hj; simp only [upd, if_neg hj]; intro h'; exact hj (q.only j h')) (by rw [h4]; simp [q.rq])
  refine ⟨v, ?_, k1, k2, by rw [k3, h1]; simp [delivered]⟩
  refine readOut_snoc (ch := ch) (l := []) (res := .value v) ?_ (by simp) (by rw [h1]; simp)
  exact readOut_none h (by simp [q.susp]) (by simp [q.susp])

theorem CI.runC {ch : Chan.St} {rd k i : Nat} {dir : Option Nat} (h : CI ch) (q : Post ch rd dir true)
    (hk : ch.posted[k]? = some (.r i)) :
    readOut (ch.step (.run k)) rd = some (.err 1) ∧ CI ((ch.step (.run k)).step (.dropR rd)) ∧
    Free ((ch.step (.run k)).step (.dropR rd)) ∧
    delivered ((ch.step (.run k)).step (.dropR rd)).log = delivered ch.log := by
  obtain rfl : i = rd := q.only i (h.wf.rpost i (List.mem_of_getElem? hk)).1
  have e : ch.step (.run k) = ({ ch with posted := ch.posted.eraseIdx k } : Chan.St).endR i .aborted := by
    simp only [Chan.St.step, h.ub, Chan.St.run, hk]
    exact resC h.opn q.hc
  have hc : CI (ch.step (.run k)) := h.step (by rw [e]; exact h.ub) (by rw [e]; exact h.opn) (by rw [e]; exact h.wst)
  obtain ⟨k1, k2, k3⟩ := hc.drop (rd := i) (by rw [e]; simp [Chan.St.endR, upd])
    (by rw [e]; intro j hj; simp only [Chan.St.endR, upd, if_neg hj]; intro h'; exact hj (q.only j h')) (by rw [e]; simp [Chan.St.endR, q.rq])
  refine ⟨?_, k1, k2, by rw [k3, e]; simp [Chan.St.endR, delivered]⟩
  refine readOut_snoc (ch := ch) (l := []) (res := .aborted) ?_ (by simp) (by rw [e]; simp [Chan.St.endR])
  exact readOut_none h (by simp [q.susp]) (by simp [q.susp])

/-- What the sessions do to the read. -/
structure Keep (ch ch' : Chan.St) : Prop where
  ci : CI ch'
  free : Free ch → Free ch'
  que : ∀ rd, Queued ch rd → Queued ch' rd ∨ Post ch' rd none false
  post : ∀ rd dir canc, Post ch rd dir canc → Post ch' rd dir canc
  dlv : delivered ch'.log = delivered ch.log

theorem Keep.trans {a b c : Chan.St} (h : Keep a b) (k : Keep b c) : Keep a c := by
  refine ⟨k.ci, fun f => k.free (h.free f), ?_, fun rd d x p => k.post _ _ _ (h.post _ _ _ p), by rw [k.dlv, h.dlv]⟩
  intro rd q
  rcases h.que rd q with q | p
  · exact k.que rd q
  · exact Or.inr (k.post _ _ _ p)

theorem Keep.same {ch ch' : Chan.St} (h : CI ch') (hr : ch'.R = ch.R) (hq : ch'.rq = ch.rq)
    (hb : ch.buf ≠ [] → ch'.buf ≠ []) (hd : delivered ch'.log = delivered ch.log) : Keep ch ch' := by
  refine ⟨h, ?_, ?_, ?_, hd⟩
  · rintro ⟨h1, h2⟩; exact ⟨by rw [hq, h1], by rw [hr]; exact h2⟩
  · rintro rd ⟨h1, h2, h3, h4⟩; exact Or.inl ⟨by rw [hq, h1], by rw [hr]; exact h2, by rw [hr]; exact h3, by rw [hr]; exact h4⟩
  · rintro rd d x ⟨h1, h2, h3, h4, h5, h6, h7, h8⟩
    exact ⟨by rw [hq, h1], by rw [hr]; exact h2, by rw [hr]; exact h3, by rw [hr]; exact h4, by rw [hr]; exact h5,
      by rw [hr]; exact h6, fun a b => hb (h7 a b), h8⟩

theorem Keep.woken {ch ch' : Chan.St} {j : Nat} (h : CI ch') (hj : ch.rq = [j])
    (hdir : (ch.R j).direct = none) (hcan : (ch.R j).cancelled = false)
    (hr : ch'.R = upd ch.R j { ch.R j with waiting := false }) (hq : ch'.rq = [])
    (hb : ch'.buf ≠ []) (hd : delivered ch'.log = delivered ch.log) : Keep ch ch' := by
  refine ⟨h, ?_, ?_, ?_, hd⟩
  · rintro ⟨h1, h2⟩; simp [hj] at h1
  · rintro rd ⟨h1, h2, h3, h4⟩
    obtain rfl : j = rd := by simpa [hj] using h1
    refine Or.inr ⟨hq, ?_, ?_, ?_, ?_, ?_, fun _ _ => hb, by simp⟩
    · intro i; rw [hr]; simp only [upd]; split
      · intro; assumption
      · exact h2 i
    · simp [hr, upd, h3]
    · simp [hr, upd]
    · simp [hr, upd, hdir]
    · simp [hr, upd, hcan]
  · rintro rd d x ⟨h1, -⟩; simp [hj] at h1

end Cobalt.Disp
