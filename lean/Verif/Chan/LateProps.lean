import Verif.Chan.LateFifo
import Verif.Chan.Handed
/-!
# C01 and C02, exactly
-/
namespace Cobalt.Chan

/-- **C01** (limit 0, any number of readers and writers, every schedule that has not reached undefined behaviour): every
value read was written by an awaited write and no write supplies two reads; and earlier-awaited reads get the values of
earlier-awaited writes. -/
theorem C01_order (es : List Ev) (hu : (exec 0 es).ub = false) :
    (delivered (exec 0 es).log).Nodup ∧
    (∀ i v, Obs.doneR i (.value v) ∈ (exec 0 es).log →
      Obs.startW v ∈ (exec 0 es).log ∧
      ∀ j w, Obs.doneR j (.value w) ∈ (exec 0 es).log →
        (Before (exec 0 es).log (.startR i) (.startR j) ↔
         Before (exec 0 es).log (.startW v) (.startW w))) := by
  have h : I0 (exec 0 es) none := (I0.exec es).resolve_left (by simp [hu])
  have hd : ∀ i v, Obs.doneR i (.value v) ∈ (exec 0 es).log → ((exec 0 es).R i).direct = some v :=
    h.z.val
  refine ⟨h.tk.ndD, fun i v hi => ⟨(h.o.seen i v (hd i v hi)).2, fun j w hj => ?_⟩⟩
  have h1 := h.o.seen i v (hd i v hi)
  have h2 := h.o.pair i j v w (hd i v hi) (hd j w hj)
  exact ⟨fun hb => ⟨h1.2, h2.1 hb.2⟩, fun hb => ⟨h1.1, h2.2 hb.2⟩⟩

/-- Not `Prompt`: a write is awaited after the channel was closed. -/
example :
    let es := [Ev.mkR, .mkR, .awaitR 0 true false [], .awaitR 1 true false [], .mkW, .mkW, .mkW, .awaitW 1 true false [],
      .awaitW 0 true false [], .close, .awaitW 2 true false [], .run 0, .run 0]
    (exec 0 es).ub = false ∧ ¬ Prompt (St.init 0) es ∧ delivered (exec 0 es).log = [1, 0] := by decide

/-- The value of `w` was handed to one read. That read has returned it, or it has been posted to the executor and in every
continuation returns nothing else. -/
def Handed (cap : Nat) (es : List Ev) (w : Nat) : Prop :=
  ∃ i, (Obs.doneR i (.value w) ∈ (exec cap es).log ∨
      (((exec cap es).R i).status = .susp ∧ Tok.r i ∈ (exec cap es).posted)) ∧
    ∀ es' res, Obs.doneR i res ∈ (exec cap (es ++ es')).log → res = .value w

/-- **C01, exactly** (limit 0, any number of readers and writers, every schedule that has not reached undefined behaviour):
an assertion fails if and only if a write that was made before the channel was closed is awaited after that. -/
theorem C01_assert_exact (es : List Ev) (hu : (exec 0 es).ub = false) :
    (exec 0 es).asserted = true ↔ ∃ w, LateIn 0 es w :=
  ((X0.exec es).resolve_left (by simp [hu])).ass

example :
    let es := [Ev.mkW, .mkW, .close, .intW 1, .awaitW 1 true false [], .awaitW 0 true false []]
    (exec 0 es).ub = false ∧ (exec 0 es).asserted = true ∧
      (exec 0 es).log = [.startW 1, .doneW 1 .aborted, .startW 0, .doneW 0 .ok] := by decide

/-- **C01, exactly** (limit 0, any number of readers and writers, every schedule that has not reached undefined behaviour):
the value of a write that reports success is handed to a read if and only if the write was not awaited after
the channel had been closed since it was made. -/
theorem C01_exact (es : List Ev) (hu : (exec 0 es).ub = false) (w : Nat) (hw : Obs.doneW w .ok ∈ (exec 0 es).log) :
    Handed 0 es w ↔ ¬ LateIn 0 es w := by
  have h : I0 (exec 0 es) none := (I0.exec es).resolve_left (by simp [hu])
  have x := (X0.exec es).resolve_left (by simp [hu])
  have key : ∀ i, ((exec 0 es).R i).direct = some w →
      ∀ es' res, Obs.doneR i res ∈ (exec 0 (es ++ es')).log → res = .value w := by
    intro i hi es' res hr
    have hh : Holds i w (exec 0 es) := by
      refine ⟨hi, h.wf.rdir i w hi, h.z.cap0, h.z.buf0, fun res hres => ?_⟩
      obtain ⟨v, rfl⟩ := h.tk.dirOkR i res w hres hi
      have := h.z.val i v hres
      rw [hi] at this
      simp at this
      rw [this]
    rw [exec_append] at hr
    exact (hh.steps es' (Or.inr h.wf)).res res hr
  constructor
  · rintro ⟨i, h1, h2⟩ hl
    have hd := (x.late w hl).2
    rcases h1 with h1 | ⟨h1, h3⟩
    · have := h.tk.dirW i w (h.z.val i w h1)
      rw [hd] at this
      cases this
    · -- the read that was posted returns something else
      obtain ⟨k, hk⟩ := List.getElem?_of_mem h3
      have hI : I0 { exec 0 es with posted := (exec 0 es).posted.eraseIdx k } (some (.r i)) := by
        refine ⟨h.wf.unpost hk, h.tk.unpost h.wf hk, ?_, ?_, hu⟩
        · have hz := h.z
          have hm := nodup_eraseIdx_mem h.wf.ndP hk
          constructor
          all_goals (cases hz; simp only at *; grind)
        · exact h.o.frame (m := []) (by simp) (List.Sublist.refl _) (List.Sublist.refl _) (fun _ => rfl)
      have hrun : exec 0 (es ++ [.run k]) = { exec 0 es with posted := (exec 0 es).posted.eraseIdx k }.resumeR i := by
        rw [show exec 0 (es ++ [.run k]) = (exec 0 es).step (.run k) from steps_snoc _ _ _]
        simp only [St.step, hu, Bool.false_eq_true, if_false, St.run, hk]
      have h2 := h2 [.run k]
      rw [hrun, hI.z.resumeR_eq hI.wf] at h2
      split at h2
      · rename_i d hdir
        have := h2 (.value d) (by simp [St.endR])
        simp only [RRes.value.injEq] at this
        subst this
        have := h.tk.dirW i d hdir
        rw [hd] at this
        cases this
      · have := h2 _ (by simp only [St.endR, List.mem_append, List.mem_singleton]; exact .inr rfl)
        split at this <;> cases this
  · intro hl
    rcases x.ok w hw with hd | hd
    · obtain ⟨i, h1, h2⟩ := x.src w hd
      refine ⟨i, ?_, key i h1⟩
      rcases h2 with h2 | h2
      · refine .inr ⟨h2, ?_⟩
        rcases h.wf.rsusp i h2 with hwt | hpo | hcu
        · have h3 := h.wf.rlink i (h.wf.rwait i hwt).2
          rw [h1] at h3
          simp at h3
        · exact hpo
        · simp at hcu
      · exact .inl h2
    · exact absurd hd hl

/-- One write of each kind. -/
example :
    let es := [Ev.mkR, .awaitR 0 true false [], .mkW, .mkW, .awaitW 0 true false [], .close, .awaitW 1 true false [], .run 0]
    (exec 0 es).ub = false ∧ Obs.doneW 0 .ok ∈ (exec 0 es).log ∧ Obs.doneW 1 .ok ∈ (exec 0 es).log ∧
      delivered (exec 0 es).log = [0] := by decide

example : LateIn 0 [.mkR, .awaitR 0 true false [], .mkW, .mkW, .awaitW 0 true false [], .close, .awaitW 1 true false [], .run 0] 1 :=
  ⟨[.mkR, .awaitR 0 true false [], .mkW, .mkW, .awaitW 0 true false [], .close], .awaitW 1 true false [], [.run 0], rfl,
    ⟨rfl, by decide, by decide, by decide, by decide⟩⟩

/-- What reads returned, then the buffer, then the at most one value already handed to a waiting reader, is
exactly what the channel accepted, in the order it was written; nothing is accepted twice and every successful write is
accepted. -/
def FifoOk (s : St) : Prop :=
  (∃ hand, hand.length ≤ 1 ∧ InHandList s hand ∧ delivered s.log ++ s.buf ++ hand = s.taken) ∧
  s.taken.Nodup ∧ ∀ w, Obs.doneW w .ok ∈ s.log → w ∈ s.taken

/-- **C02, exactly** (any limit, one producer, one consumer, every schedule that has not reached undefined behaviour): the
channel is a queue if and only if no write that was made before the channel was closed is awaited
after that while the buffer is full. -/
theorem C02_exact (cap : Nat) (es : List Ev) (hs : Spsc (St.init cap) es) (hu : (exec cap es).ub = false) :
    FifoOk (exec cap es) ↔ ¬ ∃ a e b, es = a ++ e :: b ∧ LateFull (exec cap a) e := by
  constructor
  · rintro ⟨⟨hand, -, h2, h3⟩, -, h5⟩ ⟨a, e, b, rfl, hl⟩
    have hu' : (exec cap a).ub = false := ub_prefix hu
    have ha : (exec cap (a ++ [e])).asserted = true := by
      rw [show exec cap (a ++ [e]) = (exec cap a).step e from steps_snoc _ _ _]
      refine (C05_when cap a hu' e).2 (.inr (.inr ?_))
      cases e with
      | awaitW i c x hits =>
        exact ⟨i, c, x, hits, rfl, hl.2.1, hl.1, hl.2.2.1, hl.2.2.2.1, (reach hu').1.wfresh i hl.2.1, hl.2.2.2.2⟩
      | _ => exact hl.elim
    have ha : (exec cap (a ++ e :: b)).asserted = true := by
      rw [show a ++ e :: b = (a ++ [e]) ++ b by simp] at hu ⊢
      exact asserted_mono b hu ha
    obtain ⟨w, hw, hb, hd, hh⟩ := (C05_exact cap _ hu).2 ha
    have ht : w ∈ (exec cap (a ++ e :: b)).taken := by
      rcases hw with hw | hw
      · rcases ((exec_dw cap _).resolve_left (by simp [hu])) w hw with h | h
        · simp only [St.taken, List.mem_filter]
          exact ⟨(mem_startsW _ _).2 ((reach hu).2.dirSt w hw), by simp [h, hw]⟩
        · exact h5 w h
      · exact h5 w hw
    rw [← h3, List.mem_append, List.mem_append] at ht
    rcases ht with (ht | ht) | ht
    · exact hd ht
    · exact hb ht
    · exact hh ((h2 w).1 ht)
  · intro hn
    obtain ⟨j, -⟩ := spsc2 hs hu hn
    obtain ⟨h, t⟩ := reach hu
    refine ⟨?_, j.ndS.filter _, ?_⟩
    · by_cases hd : ∃ i d, ((exec cap es).R i).status = .susp ∧ ((exec cap es).R i).direct = some d
      · obtain ⟨i, d, h1, h2⟩ := hd
        refine ⟨[d], by simp, ?_, j.fifo1 i d (Or.inl h1) h2⟩
        intro w
        simp only [List.mem_singleton]
        constructor
        · rintro rfl; exact ⟨i, h1, h2⟩
        · rintro ⟨k, h3, h4⟩
          have := j.oneR i k (Or.inl h1) (Or.inl h3)
          subst this
          rw [h2] at h4
          simpa using h4.symm
      · simp only [not_exists, not_and] at hd
        refine ⟨[], by simp, ?_, ?_⟩
        · intro w
          simp only [List.not_mem_nil, false_iff]
          rintro ⟨k, h3, h4⟩
          exact hd k w h3 h4
        · rw [List.append_nil]
          apply j.fifo0
          intro k hk
          simp only [St.actR, reduceCtorEq, or_false] at hk
          cases hk' : ((exec cap es).R k).direct with
          | none => rfl
          | some d => exact absurd hk' (hd k d hk)
    · intro w hw
      simp only [St.taken, List.mem_filter]
      refine ⟨(mem_startsW _ _).2 (t.esW w _ hw), ?_⟩
      simp [hw]

/-- A write made before the channel was closed and awaited after it, with room in the buffer. The value can be read. -/
example :
    let es := [Ev.mkW, .mkW, .awaitW 0 true false [], .close, .awaitW 1 true false [], .mkR, .awaitR 0 true false [], .mkR,
      .awaitR 1 true false []]
    (exec 2 es).ub = false ∧ ¬ Prompt (St.init 2) es ∧ delivered (exec 2 es).log = [0, 1] := by decide

example : Spsc (St.init 2) [.mkW, .mkW, .awaitW 0 true false [], .close, .awaitW 1 true false [], .mkR,
    .awaitR 0 true false [], .mkR, .awaitR 1 true false []] := by
  simp only [Spsc, true_and, and_true]
  refine ⟨?_, ?_, ?_, ?_⟩
  all_goals (intro i; rcases i with _ | _ | _ | i <;> first | decide | exact fun h => by cases h)

/-- Without: one value is lost. -/
example : LateFull (exec 1 [.mkW, .mkW, .awaitW 0 true false [], .close]) (.awaitW 1 true false []) ∧
    (exec 1 [.mkW, .mkW, .awaitW 0 true false [], .close, .awaitW 1 true false []]).buf = [1] :=
  ⟨⟨by decide, by decide, by decide, by decide, by decide⟩, by decide⟩

end Cobalt.Chan
