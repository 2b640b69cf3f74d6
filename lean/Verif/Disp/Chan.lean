import Verif.Disp.Gen
import Verif.Chan.RoomProps
/-! The channel of the dispatcher. -/
namespace Cobalt.Disp
open Cobalt.Comb (Out)
open Cobalt.Chan (WF TK Obs Tok delivered upd)

/-- The channel is open and all writes in its queue wait. -/
structure CI (ch : Chan.St) : Prop where
  ex : ∃ es, ch = Chan.exec ch.cap es
  ub : ch.ub = false
  opn : ch.closed = false
  wst : ∀ w, w ∈ ch.wq → (ch.W w).waiting = true

theorem CI.wf {ch : Chan.St} (h : CI ch) : WF ch none := by
  obtain ⟨es, he⟩ := h.ex
  have hu := h.ub
  rw [he] at hu ⊢
  exact (Chan.reach hu).1

theorem CI.tk {ch : Chan.St} (h : CI ch) : TK ch none := by
  obtain ⟨es, he⟩ := h.ex
  have hu := h.ub
  rw [he] at hu ⊢
  exact (Chan.reach hu).2

/-- No read is suspended. -/
structure Free (ch : Chan.St) : Prop where
  rq : ch.rq = []
  no : ∀ i, (ch.R i).status ≠ .susp

/-- The read of the round has been made, -/
structure New (ch : Chan.St) (rd : Nat) : Prop extends Free ch where
  fresh : (ch.R rd).status = .fresh
  canc : (ch.R rd).cancelled = false

/-- waits in the queue, -/
structure Queued (ch : Chan.St) (rd : Nat) : Prop where
  rq : ch.rq = [rd]
  only : ∀ i, (ch.R i).status = .susp → i = rd
  susp : (ch.R rd).status = .susp
  wait : (ch.R rd).waiting = true

/-- or will be resumed. -/
structure Post (ch : Chan.St) (rd : Nat) (dir : Option Nat) (canc : Bool) : Prop where
  rq : ch.rq = []
  only : ∀ i, (ch.R i).status = .susp → i = rd
  susp : (ch.R rd).status = .susp
  wait : (ch.R rd).waiting = false
  hd : (ch.R rd).direct = dir
  hc : (ch.R rd).cancelled = canc
  buf : canc = false → dir = none → ch.buf ≠ []
  nodir : canc = true → dir = none

theorem CI.step {ch : Chan.St} (h : CI ch) {e : Chan.Ev} (hu : (ch.step e).ub = false)
    (ho : (ch.step e).closed = false) (hw : ∀ w, w ∈ (ch.step e).wq → ((ch.step e).W w).waiting = true) :
    CI (ch.step e) := by
  refine ⟨?_, hu, ho, hw⟩
  obtain ⟨es, he⟩ := h.ex
  refine ⟨es ++ [e], ?_⟩
  rw [(Chan.nextW_step ch e).1]
  conv => lhs; rw [he]
  simp [Chan.exec, Chan.St.steps]

theorem readOut_none {ch : Chan.St} (h : CI ch) {i : Nat} (hs : (ch.R i).status ≠ .done) (hs' : (ch.R i).status ≠ .gone) :
    readOut ch i = none := by
  unfold readOut
  rw [List.findSome?_eq_none_iff]
  intro x hx
  unfold endOf
  split
  · split
    · rename_i he; subst he; rcases h.tk.endR _ _ hx with h1 | h1 <;> contradiction
    · rfl
  · rfl

theorem readOut_snoc {ch : Chan.St} {i : Nat} {l : List Obs} (hn : readOut ch i = none) (hl : ∀ j res, Obs.doneR j res ∉ l)
    {res : Chan.RRes} {ch' : Chan.St} (hc : ch'.log = ch.log ++ l ++ [.doneR i res]) :
    readOut ch' i = some (resOut res) := by
  unfold readOut at *
  rw [hc, List.findSome?_append, List.findSome?_append, hn]
  have : l.findSome? (endOf i) = none := by
    rw [List.findSome?_eq_none_iff]
    intro x hx
    unfold endOf
    split
    · exact absurd hx (hl _ _)
    · rfl
  rw [this]
  simp [endOf]

theorem CI.init (cap : Nat) : CI (Chan.St.init cap) := by
  refine ⟨⟨[], rfl⟩, rfl, rfl, ?_⟩
  simp [Chan.St.init]

theorem Free.init (cap : Nat) : Free (Chan.St.init cap) := by
  constructor <;> simp [Chan.St.init]

theorem CI.mkR {ch : Chan.St} (h : CI ch) (f : Free ch) : CI (ch.step .mkR) ∧ New (ch.step .mkR) ch.nextR ∧
    (ch.step .mkR).log = ch.log ∧ (ch.step .mkR).buf = ch.buf ∧ (ch.step .mkR).wq = ch.wq := by
  have e : ch.step .mkR = { ch with R := upd ch.R ch.nextR { status := .fresh }, nextR := ch.nextR + 1 } := by
    simp [Chan.St.step, h.ub]
  refine ⟨h.step (by rw [e]; exact h.ub) (by rw [e]; exact h.opn) (by rw [e]; exact h.wst), ?_, by rw [e], by rw [e], by rw [e]⟩
  rw [e]
  have := f.no
  refine ⟨⟨f.rq, ?_⟩, ?_, ?_⟩
  · intro i; simp only [upd]; split <;> simp_all
  · simp [upd]
  · simp [upd]

/-- The read waits. -/
theorem CI.queue {ch : Chan.St} {rd : Nat} (h : CI ch) (n : New ch rd) (hb : ch.buf = []) (hw : ch.wq = []) :
    CI (ch.step (.awaitR rd true true [])) ∧ Queued (ch.step (.awaitR rd true true [])) rd ∧
    delivered (ch.step (.awaitR rd true true [])).log = delivered ch.log := by
  have e : ch.step (.awaitR rd true true []) = { ch with
      log := ch.log ++ [.startR rd]
      R := upd ch.R rd { ch.R rd with status := .susp, waiting := true, slot := true, txn := true }
      rq := ch.rq ++ [rd] } := by
    simp [Chan.St.step, h.ub, Chan.St.awaitR, n.fresh, n.canc, Chan.St.readReady, hb, h.opn, hw, Chan.St.queueR]
  have := n.no
  refine ⟨h.step (by rw [e]; exact h.ub) (by rw [e]; exact h.opn) (by rw [e]; exact h.wst), ?_, by rw [e]; simp [delivered]⟩
  rw [e]
  refine ⟨by simp [n.rq], ?_, ?_, ?_⟩
  · intro i; simp only [upd]; split <;> simp_all
  · simp [upd]
  · simp [upd]

/-- The read takes over from a session that waits. -/
theorem CI.hand {ch : Chan.St} {rd : Nat} (h : CI ch) (n : New ch rd) (hb : ch.buf = []) {w : Nat} {rest : List Nat}
    (hw : ch.wq = w :: rest) :
    CI (ch.step (.awaitR rd true true [])) ∧ Post (ch.step (.awaitR rd true true [])) rd (some w) false ∧
    delivered (ch.step (.awaitR rd true true [])).log = delivered ch.log := by
  have hww := h.wst w (by simp [hw])
  have hl := (h.wf.wlink w (by simp [hw]))
  have hsw := h.wf.wwait w hww
  have hnd := h.wf.ndW
  rw [hw] at hnd
  have hcl := hl.2.1
  have hca : (ch.W w).cancelled = false := by rcases hl.2.2 with h1 | h1 <;> simp_all
  have hu := h.ub
  have hrq := n.rq
  have ho := h.opn
  have hno := n.no
  have hcr := n.canc
  have hf := n.fresh
  have e : ∃ W, ch.step (.awaitR rd true true []) = { ch with
      log := ch.log ++ [.startR rd] ++ [.doneW w .ok], W := W
      R := upd ch.R rd { ch.R rd with status := .susp, waiting := false, slot := false, txn := true, direct := some w }
      wq := rest
      posted := ch.posted ++ [.r rd] } ∧
      ∀ x, x ≠ w → W x = ch.W x := by
    refine ⟨fun j => if j = w then { ch.W w with status := .done, slot := false, waiting := false, direct := true } else ch.W j,
      ?_, fun x hx => by simp [hx]⟩
    simp [Chan.St.step, hu, Chan.St.awaitR, hf, hcr, Chan.St.readReady, hb, ho, hw, hww, Chan.St.takeFrom, Chan.St.handR,
      Chan.St.resumeW, upd, hcl, hca, Chan.St.endW, Chan.St.wakeReader, hrq]
    constructor <;> funext j <;> by_cases hj : j = rd <;> by_cases hj' : j = w <;> simp_all [upd]
  obtain ⟨W, e, hW⟩ := e
  refine ⟨h.step (by rw [e]; exact h.ub) (by rw [e]; exact h.opn) ?_, ?_, by rw [e]; simp [delivered]⟩
  · rw [e]
    intro x hx
    have hxw : x ≠ w := by rintro rfl; simp_all
    show (W x).waiting = true
    rw [hW x hxw]
    exact h.wst x (by rw [hw]; exact List.mem_cons_of_mem _ hx)
  · rw [e]
    refine ⟨n.rq, ?_, ?_, ?_, ?_, ?_, ?_, ?_⟩
    · intro i; simp only [upd]; split <;> simp_all
    all_goals simp [upd, hcr]

/-- A read that is not cancelled ends with a value. -/
theorem resR {ch : Chan.St} {i : Nat} (hu : ch.ub = false) (ho : ch.closed = false) (hc : (ch.R i).cancelled = false)
    (hv : ch.buf ≠ [] ∨ (ch.R i).direct.isSome) (hnd : ch.wq.Nodup) (hw : ∀ w, w ∈ ch.wq → (ch.W w).waiting = true) :
    ∃ v, (ch.resumeR i).log = ch.log ++ [.doneR i (.value v)] ∧ (ch.resumeR i).ub = false ∧
      (ch.resumeR i).closed = false ∧ (ch.resumeR i).rq = ch.rq ∧
      (ch.resumeR i).R = upd ch.R i { ch.R i with status := .done, slot := false, waiting := false } ∧
      ∀ w, w ∈ (ch.resumeR i).wq → ((ch.resumeR i).W w).waiting = true := by
  have key : ∀ t : Chan.St, t.ub = false → t.closed = false → t.wq = ch.wq → t.W = ch.W →
      t.wakeWriter.log = t.log ∧ t.wakeWriter.ub = false ∧ t.wakeWriter.closed = false ∧ t.wakeWriter.rq = t.rq ∧
      t.wakeWriter.R = t.R ∧ ∀ w, w ∈ t.wakeWriter.wq → (t.wakeWriter.W w).waiting = true := by
    intro t h1 h2 h3 h4
    unfold Chan.St.wakeWriter
    rw [h3]
    cases hq : ch.wq with
    | nil => simp [h1, h2, h3, hq]
    | cons w rest =>
      have hww := hw w (by simp [hq])
      dsimp only
      split
      · rw [if_pos (by simpa [h4] using hww)]
        refine ⟨rfl, h1, h2, rfl, rfl, ?_⟩
        intro x hx
        rw [hq] at hnd
        have hxw : x ≠ w := by rintro rfl; simp_all
        simp only [upd, if_neg hxw, h4]
        exact hw x (by rw [hq]; exact List.mem_cons_of_mem _ hx)
      · refine ⟨rfl, h1, h2, rfl, rfl, ?_⟩
        show ∀ x, x ∈ w :: rest → (t.W x).waiting = true
        rw [h4, ← hq]; exact hw
  unfold Chan.St.resumeR
  rw [if_neg (by simp [ho]), if_neg (by simp [hc])]
  cases hb : ch.buf with
  | nil =>
    obtain ⟨d, hd⟩ := Option.isSome_iff_exists.1 (hv.resolve_left (by simp [hb]))
    have k := key (ch.endR i (.value d)) hu ho rfl rfl
    refine ⟨d, ?_⟩
    split
    · simp_all
    · rename_i x hx; rw [hd] at hx; cases hx; exact k
    · simp_all
    · simp_all
  | cons b bs =>
    cases hd : (ch.R i).direct with
    | none => exact ⟨b, key { ch.endR i (.value b) with buf := bs } hu ho rfl rfl⟩
    | some d => exact ⟨b, key { ch.endR i (.value b) with buf := Chan.pushBack ch.cap bs d } hu ho rfl rfl⟩

/-- The read finds something in the buffer. -/
theorem CI.take {ch : Chan.St} {rd : Nat} (h : CI ch) (n : New ch rd) (hb : ch.buf ≠ []) :
    ∃ v, readOut (ch.step (.awaitR rd true true [])) rd = some (.ok v) ∧
    CI ((ch.step (.awaitR rd true true [])).step (.dropR rd)) ∧
    Free ((ch.step (.awaitR rd true true [])).step (.dropR rd)) ∧
    delivered ((ch.step (.awaitR rd true true [])).step (.dropR rd)).log = delivered ch.log ++ [v] := by
  have e : ch.step (.awaitR rd true true []) = ({ ch with log := ch.log ++ [.startR rd] } : Chan.St).resumeR rd := by
    simp [Chan.St.step, h.ub, Chan.St.awaitR, n.fresh, Chan.St.readReady, hb]
  obtain ⟨v, h1, h2, h3, h4, h5, h6⟩ := resR (ch := { ch with log := ch.log ++ [.startR rd] }) (i := rd) h.ub h.opn n.canc
    (Or.inl hb) h.wf.ndW h.wst
  refine ⟨v, ?_, ?_⟩
  · refine readOut_snoc (ch := ch) (l := [.startR rd]) (res := .value v) ?_ (by simp) ?_
    · exact readOut_none h (by simp [n.fresh]) (by simp [n.fresh])
    · rw [e, h1]
  · have hn := n.no
    have hrq := n.rq
    have hh : CI (ch.step (.awaitR rd true true [])) := h.step (by rw [e]; exact h2) (by rw [e]; exact h3) (by rw [e]; exact h6)
    rw [e] at hh ⊢
    generalize ({ ch with log := ch.log ++ [Obs.startR rd] } : Chan.St).resumeR rd = c at *
    have e' : c.step (.dropR rd) = { c with R := upd c.R rd { c.R rd with status := .gone }, rq := c.rq.erase rd } := by
      simp [Chan.St.step, h2, Chan.St.dropR, h5, upd]
    refine ⟨hh.step (by rw [e']; exact h2) (by rw [e']; exact h3) (by rw [e']; exact h6), ?_, ?_⟩
    · rw [e']
      constructor
      · simp [h4, hrq]
      · intro i
        simp only [upd, h5]
        split
        · simp
        · simp_all
    · rw [e']
      simp [h1, delivered]

end Cobalt.Disp
