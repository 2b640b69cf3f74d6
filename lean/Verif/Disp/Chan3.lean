import Verif.Disp.Chan2
/-! The sessions of the dispatcher. -/
namespace Cobalt.Disp
open Cobalt.Comb (Out)
open Cobalt.Chan (WF TK Obs Tok delivered upd)

theorem push_ne {cap : Nat} {b : List Nat} {x : Nat} (h : cap ≠ 0) : Chan.pushBack cap b x ≠ [] := by
  unfold Chan.pushBack
  rw [if_neg h]
  split <;> simp

theorem push_keep {cap : Nat} {b : List Nat} {x : Nat} (h : b ≠ []) : Chan.pushBack cap b x ≠ [] := by
  unfold Chan.pushBack
  split
  · exact h
  · split <;> simp

/-- What the end of a write does. -/
structure Res.W (ch : Chan.St) (i : Nat) (ch' : Chan.St) : Prop where
  ub : ch'.ub = false
  opn : ch'.closed = false
  wq : ch'.wq = ch.wq
  oth : ∀ x, x ≠ i → ch'.W x = ch.W x
  dlv : delivered ch'.log = delivered ch.log
  buf : ch.buf ≠ [] → ch'.buf ≠ []
  alt : (ch'.rq = ch.rq ∧ ch'.R = ch.R) ∨
    (∃ j, ch.rq = [j] ∧ ch'.rq = [] ∧ ch'.R = upd ch.R j { ch.R j with waiting := false } ∧ ch'.buf ≠ [])

theorem wakeR {t ch : Chan.St} {i : Nat} (hu : t.ub = false) (ho : t.closed = false) (hwq : t.wq = ch.wq)
    (hoth : ∀ x, x ≠ i → t.W x = ch.W x) (hd : delivered t.log = delivered ch.log) (hb : ch.buf ≠ [] → t.buf ≠ [])
    (hr : t.R = ch.R) (hq : t.rq = ch.rq)
    (hrq : ch.rq = [] ∨ ∃ j, ch.rq = [j] ∧ (ch.R j).waiting = true) : Res.W ch i t.wakeReader := by
  unfold Chan.St.wakeReader
  rcases hrq with h | ⟨j, h, hw⟩
  · rw [hq, h]
    exact ⟨hu, ho, hwq, hoth, hd, hb, Or.inl ⟨hq, hr⟩⟩
  · rw [hq, h]
    dsimp only
    split
    · rename_i hrr
      rw [if_pos (by rw [hr]; exact hw)]
      refine ⟨hu, ho, hwq, hoth, hd, hb, Or.inr ⟨j, h, rfl, by simp [hr], ?_⟩⟩
      simpa [Chan.St.readReady, ho] using hrr
    · exact ⟨hu, ho, hwq, hoth, hd, hb, Or.inl ⟨h.symm, hr⟩⟩

theorem resW {ch : Chan.St} {i : Nat} (hu : ch.ub = false) (ho : ch.closed = false)
    (hrq : ch.rq = [] ∨ ∃ j, ch.rq = [j] ∧ (ch.R j).waiting = true) : Res.W ch i (ch.resumeW i) := by
  have oth : ∀ (t : Chan.St) (x : Nat) res, x ≠ i → (t.endW i res).W x = t.W x := by
    intro t x res hx; simp [Chan.St.endW, upd, hx]
  unfold Chan.St.resumeW
  split
  · exact ⟨hu, ho, rfl, fun x hx => oth _ x _ hx, by simp [Chan.St.endW, delivered], fun h => h, Or.inl ⟨rfl, rfl⟩⟩
  · split
    · exact ⟨hu, ho, rfl, fun x hx => oth _ x _ hx, by simp [Chan.St.endW, delivered], fun h => h, Or.inl ⟨rfl, rfl⟩⟩
    · split
      · exact wakeR hu ho rfl (fun x hx => oth _ x _ hx) (by simp [Chan.St.endW, delivered]) (fun h => h) rfl rfl hrq
      · exact wakeR hu ho rfl (fun x hx => oth _ x .ok hx) (by simp [Chan.St.endW, delivered]) (fun h => push_keep h) rfl rfl hrq

/-- At most one read is in the queue, and it waits. -/
def Ok (ch : Chan.St) : Prop := ch.rq = [] ∨ ∃ j, ch.rq = [j] ∧ (ch.R j).waiting = true

theorem Free.ok {ch : Chan.St} (f : Free ch) : Ok ch := Or.inl f.rq

theorem Queued.ok {ch : Chan.St} {rd : Nat} (f : Queued ch rd) : Ok ch := Or.inr ⟨rd, f.rq, f.wait⟩

theorem Post.ok {ch : Chan.St} {rd : Nat} {d : Option Nat} {c : Bool} (f : Post ch rd d c) : Ok ch := Or.inl f.rq

theorem Res.W.keep {ch ch₀ ch' : Chan.St} {i : Nat} (h : CI ch) (hc : CI ch') (r : Res.W ch₀ i ch') (hr : ch₀.R = ch.R)
    (hq : ch₀.rq = ch.rq) (hb : ch₀.buf = ch.buf) (hd : delivered ch₀.log = delivered ch.log) : Keep ch ch' := by
  rcases r.alt with ⟨h1, h2⟩ | ⟨j, h1, h2, h3, h4⟩
  · exact Keep.same hc (by rw [h2, hr]) (by rw [h1, hq]) (fun hn => r.buf (by rw [hb]; exact hn)) (by rw [r.dlv, hd])
  · rw [hq] at h1
    have hl := h.wf.rlink j (by simp [h1])
    by_cases hw : (ch.R j).waiting = true
    · refine Keep.woken hc h1 hl.1 ?_ (by rw [h3, hr]) h2 h4 (by rw [r.dlv, hd])
      rcases hl.2 with h5 | h5
      · exact h5.2.2
      · simp [hw] at h5
    · refine ⟨hc, ?_, ?_, ?_, by rw [r.dlv, hd]⟩
      · rintro ⟨k1, -⟩; simp [h1] at k1
      · rintro rd ⟨k1, -, -, k4⟩
        obtain rfl : j = rd := by simpa [h1] using k1
        exact absurd k4 hw
      · rintro rd d x ⟨k1, -⟩; simp [h1] at k1

/-- A session is resumed. -/
theorem CI.runW {ch : Chan.St} {k j : Nat} (h : CI ch) (o : Ok ch) (hk : ch.posted[k]? = some (.w j)) :
    Keep ch (ch.step (.run k)) := by
  have e : ch.step (.run k) = ({ ch with posted := ch.posted.eraseIdx k } : Chan.St).resumeW j := by
    simp [Chan.St.step, h.ub, Chan.St.run, hk]
  have r := resW (ch := { ch with posted := ch.posted.eraseIdx k }) (i := j) h.ub h.opn o
  rw [← e] at r
  refine r.keep h (h.step r.ub r.opn ?_) rfl rfl rfl rfl
  intro x hx
  rw [r.wq] at hx
  have hx : x ∈ ch.wq := hx
  have : x ≠ j := by rintro rfl; exact (h.wf.wpost x (List.mem_of_getElem? hk)).2.2.1 hx
  rw [r.oth x this]
  exact h.wst x hx

theorem CI.runN {ch : Chan.St} {k : Nat} (h : CI ch) (hk : ch.posted[k]? = none) : ch.step (.run k) = ch := by
  simp [Chan.St.step, h.ub, Chan.St.run, hk]

/-- A session is cancelled. -/
theorem CI.canW {ch : Chan.St} (h : CI ch) (w : Nat) : Keep ch (ch.step (.cancelW w)) := by
  have hnd := h.wf.ndW
  have e : ch.step (.cancelW w) = ch.cancelW w := by simp [Chan.St.step, h.ub]
  have hc : CI (ch.step (.cancelW w)) := by
    apply h.step <;> rw [e] <;> unfold Chan.St.cancelW <;> split
    · exact h.ub
    · exact h.ub
    · exact h.opn
    · exact h.opn
    · intro x hx
      have hx' : x ∈ ch.wq.erase w := hx
      have h1 := (List.Nodup.mem_erase_iff hnd).1 hx'
      simp only [upd, if_neg h1.1]
      exact h.wst x h1.2
    · exact h.wst
  rw [e] at hc ⊢
  unfold Chan.St.cancelW at *
  split
  · rename_i hs
    rw [if_pos hs] at hc
    exact Keep.same hc rfl rfl (fun h => h) rfl
  · rename_i hs
    rw [if_neg hs] at hc
    exact Keep.same hc rfl rfl (fun h => h) rfl

theorem CI.mkW {ch : Chan.St} (h : CI ch) : Keep ch (ch.step .mkW) ∧ ((ch.step .mkW).W ch.nextW) = { status := .fresh } ∧
    (ch.step .mkW).rq = ch.rq ∧ (ch.step .mkW).R = ch.R ∧ (ch.step .mkW).wq = ch.wq := by
  have e : ch.step .mkW = { ch with W := upd ch.W ch.nextW { status := .fresh, closedF := ch.closed }, nextW := ch.nextW + 1 } := by
    simp [Chan.St.step, h.ub]
  have hc : CI (ch.step .mkW) := by
    apply h.step <;> rw [e]
    · exact h.ub
    · exact h.opn
    · intro x hx
      have := h.wst x hx
      have hn : x ≠ ch.nextW := by
        rintro rfl
        rw [h.wf.wnew _ (Nat.le_refl _)] at this
        simp at this
      simp only [upd, if_neg hn]
      exact this
  refine ⟨?_, ?_, by rw [e], by rw [e], by rw [e]⟩
  · exact Keep.same hc (by rw [e]) (by rw [e]) (by rw [e]; exact fun h => h) (by rw [e])
  · rw [e]; simp [upd, h.opn]

/-- A session writes and does not meet the read. -/
theorem CI.put {ch : Chan.St} {w : Nat} (h : CI ch) (o : Ok ch) (hf : ch.W w = { status := .fresh })
    (hn : ch.finds (.awaitW w true false []) = none) : Keep ch (ch.step (.awaitW w true false [])) := by
  have hq : ∀ x, x ∈ ch.wq → x ≠ w := by
    rintro x hx rfl
    have := h.wst x hx
    simp [hf] at this
  by_cases hr : ch.writeReady = true
  · have e : ch.step (.awaitW w true false []) = ({ ch with log := ch.log ++ [.startW w] } : Chan.St).resumeW w := by
      simp only [Chan.St.step, h.ub, Chan.St.awaitW, hf]
      simp only [Bool.false_eq_true, if_false, ne_eq, not_true_eq_false]
      rw [if_pos (by exact hr)]
    have r := resW (ch := { ch with log := ch.log ++ [.startW w] }) (i := w) h.ub h.opn o
    rw [← e] at r
    refine r.keep h (h.step r.ub r.opn ?_) rfl rfl rfl (by simp [delivered])
    intro x hx
    rw [r.wq] at hx
    have hx : x ∈ ch.wq := hx
    rw [r.oth x (hq x hx)]
    exact h.wst x hx
  · have hrq : ch.rq = [] := by
      simp only [Chan.St.finds, hf, hr] at hn
      simpa using hn
    have e : ch.step (.awaitW w true false []) = ({ ch with log := ch.log ++ [.startW w] } : Chan.St).queueW w true false := by
      simp only [Chan.St.step, h.ub, Chan.St.awaitW, hf]
      simp only [Bool.false_eq_true, if_false, ne_eq, not_true_eq_false, hrq]
      rw [if_neg (by exact hr)]
    have hc : CI (ch.step (.awaitW w true false [])) := by
      apply h.step <;> rw [e]
      · exact h.ub
      · exact h.opn
      · intro x hx
        have hx : x ∈ ch.wq ++ [w] := hx
        by_cases hxw : x = w
        · subst hxw; simp [Chan.St.queueW, upd]
        · simp only [Chan.St.queueW, upd, if_neg hxw]
          rcases List.mem_append.1 hx with h1 | h1
          · exact h.wst x h1
          · simp at h1; exact absurd h1 hxw
    exact Keep.same hc (by rw [e]; rfl) (by rw [e]; rfl) (by rw [e]; exact fun h => h) (by rw [e]; simp [Chan.St.queueW, delivered])

/-- A session writes and meets the read. -/
theorem CI.meet {ch : Chan.St} {w rd : Nat} (h : CI ch) (q : Queued ch rd) (hf : ch.W w = { status := .fresh })
    (hn : ch.finds (.awaitW w true false []) = some (.r rd)) :
    ∃ v, readOut (ch.step (.awaitW w true false [.r rd])) rd = some (.ok v) ∧
    CI ((ch.step (.awaitW w true false [.r rd])).step (.dropR rd)) ∧
    Free ((ch.step (.awaitW w true false [.r rd])).step (.dropR rd)) ∧
    delivered ((ch.step (.awaitW w true false [.r rd])).step (.dropR rd)).log = delivered ch.log ++ [v] := by
  have hr : ch.writeReady = false := by
    rcases hr : ch.writeReady with _ | _
    · rfl
    · simp [Chan.St.finds, hr] at hn
  have hq : ∀ x, x ∈ ch.wq → x ≠ w := by
    rintro x hx rfl
    have := h.wst x hx
    simp [hf] at this
  have hwq : ch.wq = [] := by rcases h.wf.excl with h1 | h1
                              · simp [q.rq] at h1
                              · exact h1
  have hl := h.wf.rlink rd (by simp [q.rq])
  have hcn : (ch.R rd).cancelled = false := by
    rcases hl.2 with h5 | h5
    · exact h5.2.2
    · simp [q.wait] at h5
  have hu := h.ub
  have ho := h.opn
  have hs := q.susp
  have hw := q.wait
  have hrq := q.rq
  let t : Chan.St := { ch with log := ch.log ++ [.startW w], rq := [rd], ub := false }
  have e : ∃ c : Chan.St, ch.step (.awaitW w true false [.r rd]) = c.resumeR rd ∧ c.ub = false ∧ c.closed = false ∧
      (c.R rd).cancelled = false ∧ (c.R rd).direct = some w ∧ c.wq = [] ∧ c.log = ch.log ++ [.startW w] ∧
      c.rq = [] ∧ ∀ x, x ≠ rd → c.R x = ch.R x := by
    refine ⟨(t.giveTo w rd false).handW w rd, ?_, rfl, ho, ?_, ?_, hwq, rfl, ?_, ?_⟩
    · simp only [Chan.St.step, hu, Chan.St.awaitW, hf]
      simp only [Bool.false_eq_true, if_false, ne_eq, not_true_eq_false, hrq]
      rw [if_neg (by simpa [Chan.St.writeReady] using hr), if_pos hw]
      have hi : (t.giveTo w rd false).int (.r rd) = t.giveTo w rd false := by
        simp [Chan.St.int, Chan.St.intR, Chan.St.giveTo, upd]
      split
      · simp only [List.foldl]
        exact congrArg (fun z => (z.handW w rd).resumeR rd) hi
      · rfl
    · simp [Chan.St.handW, Chan.St.giveTo, upd, t, hcn]
    · simp [Chan.St.handW, Chan.St.giveTo, upd]
    · simp [Chan.St.handW, Chan.St.giveTo, t]
    · intro x hx; simp [Chan.St.handW, Chan.St.giveTo, upd, t, hx]
  obtain ⟨c, e, c1, c2, c3, c4, c5, c6, c7, c8⟩ := e
  obtain ⟨v, h1, h2, h3, h4, h5, h6⟩ := resR (ch := c) (i := rd) c1 c2 c3 (Or.inr (by simp [c4])) (by simp [c5]) (by simp [c5])
  rw [← e] at h1 h2 h3 h4 h5 h6
  have hc := h.step h2 h3 h6
  obtain ⟨k1, k2, k3⟩ := hc.drop (rd := rd) (by rw [h5]; simp [upd])
    (by rw [h5]; intro j hj; simp only [upd, if_neg hj, c8 j hj]; intro h'; exact hj (q.only j h')) (by rw [h4]; simp [c7])
  refine ⟨v, ?_, k1, k2, by rw [k3, h1, c6]; simp [delivered]⟩
  refine readOut_snoc (ch := ch) (l := [.startW w]) (res := .value v) ?_ (by simp) (by rw [h1, c6])
  exact readOut_none h (by simp [q.susp]) (by simp [q.susp])

end Cobalt.Disp
