import Verif.Chan.Closed
/-!
# C07 to C09: closing a channel, late writes, interrupted operations
-/
namespace Cobalt.Chan

theorem reach {cap : Nat} {es : List Ev} (hu : (exec cap es).ub = false) :
    WF (exec cap es) none ∧ TK (exec cap es) none := by
  rcases exec_inv cap es with h | h
  · rw [hu] at h; simp at h
  · exact h

/-- **C07**: once a channel is closed there is no undefined behaviour any more,
and at any later time nothing is queued in the channel and every suspended
operation has been posted to the executor. -/
theorem C07_nothing_left (cap : Nat) (es es' : List Ev) (hu : (exec cap es).ub = false)
    (hc : (exec cap es).closed = true) :
    (exec cap (es ++ es')).ub = false ∧ (exec cap (es ++ es')).closed = true ∧
    (exec cap (es ++ es')).rq = [] ∧ (exec cap (es ++ es')).wq = [] ∧
    (∀ i, ((exec cap (es ++ es')).R i).status = .susp → Tok.r i ∈ (exec cap (es ++ es')).posted) ∧
    (∀ i, ((exec cap (es ++ es')).W i).status = .susp → Tok.w i ∈ (exec cap (es ++ es')).posted) := by
  obtain ⟨h, t⟩ := reach hu
  rw [exec_append]
  obtain ⟨h1, _, h3, h4⟩ := closed_steps_wf es' h t hc hu
  have hq := h1.closedQ h3
  have hp := closed_posted h1 h3
  exact ⟨h4, h3, hq.1, hq.2, hp.1, hp.2⟩

/-- `close` closes, in any state. -/
theorem C07_close_closes (cap : Nat) (es : List Ev) (hu : (exec cap es).ub = false) :
    (exec cap (es ++ [.close])).closed = true ∧ (exec cap (es ++ [.close])).ub = false := by
  rw [exec_append]
  simp [St.steps, St.step, hu, St.close]

/-- **C07**: running the first posted resumption takes exactly one operation off
the list of posted ones, so after as many runs nobody is suspended. -/
theorem C07_all_end (cap : Nat) (es : List Ev) (hu : (exec cap es).ub = false)
    (hc : (exec cap es).closed = true) :
    (exec cap (es ++ List.replicate (exec cap es).posted.length (.run 0))).idle := by
  obtain ⟨h, t⟩ := reach hu
  rw [exec_append]
  generalize exec cap es = s at *
  generalize hn : s.posted.length = n
  induction n generalizing s with
  | zero =>
    have hp := closed_posted h hc
    have he : s.posted = [] := List.length_eq_zero_iff.1 hn
    rw [he] at hp
    exact ⟨fun i hi => by simpa using hp.1 i hi, fun i hi => by simpa using hp.2 i hi⟩
  | succ n ih =>
    obtain ⟨h1, h2, h3, h4⟩ := closed_steps_wf [.run 0] h t hc hu
    refine ih (s.step (.run 0)) h4 h3 h1 h2 ?_
    obtain ⟨hq1, hq2⟩ := h.closedQ hc
    rcases hp : s.posted with _ | ⟨x, l⟩
    · rw [hp] at hn; simp at hn
    · rw [hp] at hn
      simp only [List.length_cons, Nat.add_right_cancel_iff] at hn
      simp only [St.step, hu, Bool.false_eq_true, if_false, St.run, hp, List.getElem?_cons_zero,
        List.eraseIdx_cons_zero]
      cases x with
      | r i =>
        dsimp only
        rw [closed_resumeR (by exact hc) (by exact hq2)]
        exact hn
      | w i =>
        dsimp only
        obtain ⟨res, b, a, he, _⟩ := closed_resumeW (s := { s with ub := false, posted := l }) (i := i) hq1
        rw [he]
        exact hn

/-- **C07**: an operation awaited on a closed channel does not suspend. -/
theorem C07_no_suspend (cap : Nat) (es : List Ev) (hu : (exec cap es).ub = false)
    (hc : (exec cap es).closed = true) (i : Nat) (conn txn : Bool) (hits : List Tok) :
    (((exec cap es).R i).status = .fresh →
      (((exec cap es).step (.awaitR i conn txn hits)).R i).status = .done) ∧
    (((exec cap es).W i).status = .fresh →
      (((exec cap es).step (.awaitW i conn txn hits)).W i).status = .done) := by
  obtain ⟨h, t⟩ := reach hu
  obtain ⟨hq1, hq2⟩ := h.closedQ hc
  refine ⟨fun hf => ?_, fun hf => ?_⟩
  · simp only [St.step, hu, Bool.false_eq_true, if_false, awaitR_eq, hf, ne_eq, not_true_eq_false]
    rw [if_pos (Or.inl (by simp [St.readReady, hc])), closed_resumeR (by exact hc) (by exact hq2)]
    simp [St.endR, upd_apply]
  · simp only [St.step, hu, Bool.false_eq_true, if_false, awaitW_eq, hf, ne_eq, not_true_eq_false]
    rw [if_pos (Or.inl (by simp [St.writeReady, hc]))]
    obtain ⟨res, b, a, he, _⟩ := closed_resumeW
      (s := { exec cap es with log := (exec cap es).log ++ [Obs.startW i], ub := false }) (i := i) hq1
    rw [he]
    simp [St.endW, upd_apply]

/-- **C07**: a write that is suspended in the queue when the channel is closed
ends with `broken_pipe`, whatever happens later. -/
theorem C07_queued_write (cap : Nat) (es es' : List Ev) (hu : (exec cap es).ub = false) (i : Nat)
    (hi : i ∈ (exec cap es).wq) (hs : ((exec cap es).W i).status = .susp) (res : WRes)
    (hr : Obs.doneW i res ∈ (exec cap (es ++ .close :: es')).log) : res = .brokenPipe := by
  obtain ⟨h, t⟩ := reach hu
  have hcl := (C07_close_closes cap es hu).2
  have hrel := Rel.exec cap (es ++ [.close]) es'
  rw [List.append_assoc] at hrel
  have hk : ((exec cap (es ++ [.close])).W i).closedF = true := by
    rw [exec_append]
    simp [St.steps, St.step, hu, St.close, hi]
  rcases hrel.resW i hk res hr with h1 | h1
  · rw [exec_append] at h1
    simp only [St.steps, List.foldl_cons, List.foldl_nil, St.step, hu, Bool.false_eq_true, if_false, St.close] at h1
    have := t.endW i res h1
    simp [hs] at this
  · exact h1

/-- **C07**: a read that is suspended in the queue when the channel is closed
never gets a value: it ends with `broken_pipe` or `operation_aborted`, whatever
happens later. -/
theorem C07_queued_read (cap : Nat) (es es' : List Ev) (hu : (exec cap es).ub = false) (i : Nat)
    (hi : i ∈ (exec cap es).rq) (hs : ((exec cap es).R i).status = .susp) (res : RRes)
    (hr : Obs.doneR i res ∈ (exec cap (es ++ .close :: es')).log) : res = .brokenPipe ∨ res = .aborted := by
  obtain ⟨h, t⟩ := reach hu
  have hrel := Rel.exec cap (es ++ [.close]) es'
  rw [List.append_assoc] at hrel
  have hk : ((exec cap (es ++ [.close])).R i).cancelled = true := by
    rw [exec_append]
    simp [St.steps, St.step, hu, St.close, hi]
  rcases hrel.resR i hk res hr with h1 | h1
  · rw [exec_append] at h1
    simp only [St.steps, List.foldl_cons, List.foldl_nil, St.step, hu, Bool.false_eq_true, if_false, St.close] at h1
    have := t.endR i res h1
    simp [hs] at this
  · exact h1

/-- **C07**: on a closed channel a read is aborted only while a value is buffered. -/
theorem C07_aborted_means_buffered (cap : Nat) (es : List Ev) (e : Ev) (hu : (exec cap es).ub = false)
    (hc : (exec cap es).closed = true) (i : Nat)
    (hr : Obs.doneR i .aborted ∈ (exec cap (es ++ [e])).log) :
    Obs.doneR i .aborted ∈ (exec cap es).log ∨ (exec cap es).buf ≠ [] := by
  obtain ⟨h, t⟩ := reach hu
  rw [exec_append] at hr
  generalize exec cap es = s at *
  have hr : Obs.doneR i .aborted ∈ (s.step e).log := hr
  obtain ⟨hq1, hq2⟩ := h.closedQ hc
  have hdir : ∀ j, (s.R j).cancelled = true → (s.R j).direct = none := by
    intro j hj
    cases hd : (s.R j).direct with
    | none => rfl
    | some d => have := h.rdir j d hd; simp [hj] at this
  have hR : ∀ (l : List Obs) (p : List Tok) j, closedRes { s with log := l, posted := p } j = .aborted → s.buf ≠ [] := by
    intro l p j hj hb
    unfold closedRes at hj
    have := hdir j
    cases hd : (s.R j).direct <;> cases hcan : (s.R j).cancelled <;> simp_all
  unfold St.step at hr
  rw [if_neg (by simp [hu])] at hr
  cases e with
  | mkR => exact Or.inl hr
  | mkW => exact Or.inl hr
  | awaitR j c x l =>
    dsimp only at hr
    rw [awaitR_eq] at hr
    split at hr
    · exact Or.inl hr
    · dsimp only at hr
      rw [if_pos (Or.inl (by simp [St.readReady, hc])), closed_resumeR (by exact hc) (by exact hq2)] at hr
      simp only [St.endR, List.mem_append, List.mem_singleton, reduceCtorEq, or_false, Obs.doneR.injEq] at hr
      rcases hr with hr | ⟨_, hr⟩
      · exact Or.inl hr
      · exact Or.inr (hR _ s.posted j hr.symm)
  | awaitW j c x l =>
    dsimp only at hr
    rw [awaitW_eq] at hr
    split at hr
    · exact Or.inl hr
    · dsimp only at hr
      rw [if_pos (Or.inl (by simp [St.writeReady, hc]))] at hr
      obtain ⟨res, b, a, he, _⟩ := closed_resumeW
        (s := { s with log := s.log ++ [Obs.startW j] }) (i := j) hq1
      rw [he] at hr
      simp [St.endW] at hr
      exact Or.inl hr
  | run k =>
    dsimp only at hr
    unfold St.run at hr
    split at hr
    · exact Or.inl hr
    · rename_i j hk
      rw [closed_resumeR (by exact hc) (by exact hq2)] at hr
      simp only [St.endR, List.mem_append, List.mem_singleton, Obs.doneR.injEq] at hr
      rcases hr with hr | ⟨_, hr⟩
      · exact Or.inl hr
      · exact Or.inr (hR s.log _ j hr.symm)
    · rename_i j hk
      obtain ⟨res, b, a, he, _⟩ := closed_resumeW
        (s := { s with posted := s.posted.eraseIdx k }) (i := j) hq1
      rw [he] at hr
      simp [St.endW] at hr
      exact Or.inl hr
  | cancelR j => dsimp only at hr; unfold St.cancelR at hr; split at hr <;> exact Or.inl hr
  | cancelW j => dsimp only at hr; unfold St.cancelW at hr; split at hr <;> exact Or.inl hr
  | intR j =>
    have hwt := h.rwait j
    dsimp only at hr
    rw [intR_eq] at hr
    split at hr
    · exact Or.inl hr
    · split at hr
      · rename_i hw
        have := (hwt hw).2
        simp [hq1] at this
      · exact Or.inl hr
  | intW j =>
    have hwt := h.wwait j
    dsimp only at hr
    rw [intW_eq] at hr
    split at hr
    · exact Or.inl hr
    · split at hr
      · rename_i hw
        have := (hwt hw).2
        simp [hq2] at this
      · exact Or.inl hr
  | dropR j => dsimp only at hr; unfold St.dropR at hr; split at hr <;> exact Or.inl hr
  | dropW j => dsimp only at hr; unfold St.dropW at hr; split at hr <;> exact Or.inl hr
  | close => exact Or.inl hr

/-- Reading an operation `i` from a closed channel. -/
theorem C07_read_step {s : St} (hw : s.wq = []) (hu : s.ub = false) (hc : s.closed = true) (i : Nat)
    (hf : (s.R i).status = .fresh) (hk : (s.R i).cancelled = false) (hd : (s.R i).direct = none)
    (conn txn : Bool) (hits : List Tok) :
    (s.step (.awaitR i conn txn hits)).log = s.log ++ [.startR i, .doneR i (match s.buf with
      | b :: _ => .value b
      | [] => .brokenPipe)] ∧
    (s.step (.awaitR i conn txn hits)).buf = s.buf.tail ∧
    ∀ j, j ≠ i → (s.step (.awaitR i conn txn hits)).R j = s.R j := by
  simp only [St.step, hu, Bool.false_eq_true, if_false, awaitR_eq, hf, ne_eq, not_true_eq_false]
  rw [if_pos (Or.inl (by simp [St.readReady, hc])), closed_resumeR (by exact hc) (by exact hw)]
  cases hb : s.buf <;> simp +contextual [closedRes, closedBuf, hd, hk, St.endR, upd_apply]

/-- **C07**: reads started on a closed channel first return the buffered values in
order and then `broken_pipe`. -/
theorem C07_drain (cap : Nat) (es : List Ev) (hu : (exec cap es).ub = false)
    (hc : (exec cap es).closed = true) (is : List Nat) (hnd : is.Nodup)
    (hf : ∀ i ∈ is, ((exec cap es).R i).status = .fresh ∧ ((exec cap es).R i).cancelled = false) :
    delivered (exec cap (es ++ is.map (.awaitR · true false []))).log =
      delivered (exec cap es).log ++ (exec cap es).buf.take is.length ∧
    (∀ k, (exec cap es).buf.length ≤ k → ∀ i, is[k]? = some i →
      Obs.doneR i .brokenPipe ∈ (exec cap (es ++ is.map (.awaitR · true false []))).log) := by
  obtain ⟨h, t⟩ := reach hu
  rw [exec_append]
  generalize exec cap es = s at *
  induction is generalizing s with
  | nil => simp [St.steps]
  | cons i is ih =>
    rw [List.nodup_cons] at hnd
    obtain ⟨h1, h2, h3, h4⟩ := closed_steps_wf [.awaitR i true false []] h t hc hu
    obtain ⟨hfi, hki⟩ := hf i (by simp)
    obtain ⟨hl, hb, hR⟩ := C07_read_step (h.closedQ hc).2 hu hc i hfi hki (h.rfresh i hfi) true false []
    obtain ⟨ih1, ih2⟩ := ih (s := s.step (.awaitR i true false [])) hnd.2 h4 h3
      (fun j hj => by
        have hne : j ≠ i := fun e => hnd.1 (e ▸ hj)
        rw [hR j hne]
        exact hf j (by simp [hj])) h1 h2
    have hgrow := (Rel.steps (is.map (.awaitR · true false [])) (Or.inr h1)).grow
    simp only [List.map_cons, St.steps, List.foldl_cons, List.foldl_nil] at *
    refine ⟨?_, ?_⟩
    · rw [ih1, hl, hb, delivered_append]
      cases hbuf : s.buf <;> simp [delivered]
    · intro k hk j hj
      cases k with
      | succ k =>
        apply ih2 k (by rw [hb]; simp; omega) j
        simpa using hj
      | zero =>
        simp only [List.getElem?_cons_zero, Option.some.injEq] at hj
        subst hj
        obtain ⟨m, hm⟩ := hgrow
        rw [hm, hl]
        have : s.buf = [] := List.length_eq_zero_iff.1 (by omega)
        simp [this]

/-- Limit 1: a value is buffered, a write waits, the channel is closed. Running
the write and reading twice. -/
def sched3 : List Ev := [.mkW, .awaitW 0 true false [], .mkW, .awaitW 1 true false [], .mkR, .mkR]

example : (exec 1 sched3).ub = false ∧ 1 ∈ (exec 1 sched3).wq ∧ ((exec 1 sched3).W 1).status = .susp ∧
    (exec 1 (sched3 ++ [.close])).closed = true ∧ (exec 1 (sched3 ++ [.close])).posted = [.w 1] ∧
    ((exec 1 (sched3 ++ [.close])).R 0).status = .fresh ∧
    ((exec 1 (sched3 ++ [.close])).R 1).status = .fresh ∧
    (exec 1 (sched3 ++ .close :: [.run 0, .awaitR 0 true false [], .awaitR 1 true false []])).log =
      [.startW 0, .doneW 0 .ok, .startW 1, .doneW 1 .brokenPipe, .startR 0, .doneR 0 (.value 0),
       .startR 1, .doneR 1 .brokenPipe] := by decide

/-- A read is queued when the channel is closed. -/
example : 0 ∈ (exec 1 [.mkR, .awaitR 0 true false []]).rq ∧
    ((exec 1 [.mkR, .awaitR 0 true false []]).R 0).status = .susp ∧
    Obs.doneR 0 .brokenPipe ∈ (exec 1 ([.mkR, .awaitR 0 true false []] ++ .close :: [.run 0])).log := by decide

/-- A read that was interrupted before being awaited is aborted on a closed
channel with a buffered value. -/
example : let es := [Ev.mkW, .awaitW 0 true false [], .mkR, .intR 0, .close]
    (exec 1 es).closed = true ∧ Obs.doneR 0 .aborted ∈ (exec 1 (es ++ [.awaitR 0 true false []])).log := by
  decide

/-- **C08 is violated**: a write made before `close` and awaited after it reports
success and changes the buffer (`closed` is initialised when the operation is
made, channel.hpp:118). -/
theorem C08_late_write_succeeds :
    ∃ es, (exec 1 es).closed = true ∧ (exec 1 es).buf = [] ∧
      Obs.doneW 0 .ok ∈ ((exec 1 es).step (.awaitW 0 true false [])).log ∧
      ((exec 1 es).step (.awaitW 0 true false [])).buf = [0] :=
  ⟨[.mkW, .close], by decide⟩

/-- **C08**, what holds: a write operation made after `close` reports
`broken_pipe`, at whatever time it is awaited, and does not change the buffer.

Missing for the full property: it is false for writes made before `close`. -/
theorem C08_write_after_close_partial (cap : Nat) (es es' : List Ev) (hu : (exec cap es).ub = false)
    (hc : (exec cap es).closed = true) (conn txn : Bool) (hits : List Tok)
    (hf : ((exec cap (es ++ .mkW :: es')).W (exec cap es).nextW).status = .fresh) :
    let s := exec cap (es ++ .mkW :: es')
    let i := (exec cap es).nextW
    (s.step (.awaitW i conn txn hits)).log = s.log ++ [.startW i, .doneW i .brokenPipe] ∧
    (s.step (.awaitW i conn txn hits)).buf = s.buf := by
  dsimp only
  obtain ⟨h, t⟩ := reach hu
  have hrel := Rel.exec cap (es ++ [.mkW]) es'
  rw [List.append_assoc] at hrel
  have hk : ((exec cap (es ++ [.mkW])).W (exec cap es).nextW).closedF = true := by
    rw [exec_append]
    simp [St.steps, St.step, hu, hc, upd_apply]
  have hk' := hrel.cloW _ hk
  simp only [List.singleton_append] at hk'
  have hcl := C07_nothing_left cap es (.mkW :: es') hu hc
  simp only [St.step, hcl.1, Bool.false_eq_true, if_false, awaitW_eq, hf, ne_eq, not_true_eq_false]
  rw [if_pos (Or.inl (by simp [St.writeReady, hcl.2.1]))]
  simp [St.resumeW, hk', St.endW]

example : (exec 1 [.close]).ub = false ∧ (exec 1 [.close]).closed = true ∧
    ((exec 1 ([.close] ++ .mkW :: [.mkR])).W (exec 1 [.close]).nextW).status = .fresh := by decide

/-- **C09 is violated**: `interrupt_await` resumes a queued operation but leaves it
in the queue (channel.hpp:88-96, 131-139), so a later write gives it its value
and resumes a null coroutine; likewise a later read with an interrupted write. -/
theorem C09_interrupted_is_resumed :
    (exec 0 [.mkR, .awaitR 0 true true [], .intR 0, .mkW, .awaitW 0 true false []]).ub = true ∧
    (exec 0 [.mkW, .awaitW 0 true true [], .intW 0, .mkR, .awaitR 0 true false []]).ub = true ∧
    (exec 1 [.mkR, .awaitR 0 true true [], .intR 0, .mkW, .awaitW 0 true false []]).ub = true := by
  decide

/-- **C09**, what holds: if interrupted operations are destroyed before anything
else happens on the channel, no null coroutine is ever resumed: for limit 0 with
any number of readers and writers, for any limit with one reader and writer.

Missing for the full property: it is false. -/
theorem C09_tidy_partial (cap : Nat) (es : List Ev) (ht : Tidy (St.init cap) es)
    (hs : cap = 0 ∨ (Spsc (St.init cap) es ∧ Prompt (St.init cap) es)) : (exec cap es).ub = false := by
  rcases hs with rfl | ⟨hs, hp⟩
  · exact (tidy0 es _ I0.init ht).1.ub
  · exact (spsc_exec ht hp hs).2.2.ub

/-- **C09**, for the ordinary cancellation path: a queued operation that is
cancelled through its slot is out of the queue. -/
theorem C09_cancel_unlinks (cap : Nat) (es : List Ev) (hu : (exec cap es).ub = false) (i : Nat) :
    (((exec cap es).R i).slot = true → i ∉ ((exec cap es).step (.cancelR i)).rq) ∧
    (((exec cap es).W i).slot = true → i ∉ ((exec cap es).step (.cancelW i)).wq) := by
  obtain ⟨h, t⟩ := reach hu
  refine ⟨fun hs => ?_, fun hs => ?_⟩
  · simp only [St.step, hu, Bool.false_eq_true, if_false, St.cancelR, hs, if_true]
    rw [h.ndR.mem_erase_iff]
    simp
  · simp only [St.step, hu, Bool.false_eq_true, if_false, St.cancelW, hs, if_true]
    rw [h.ndW.mem_erase_iff]
    simp

/-- A tidy schedule with an interruption: the read is interrupted and destroyed,
then another pair meets. -/
example : let es := [Ev.mkR, .awaitR 0 true true [], .intR 0, .dropR 0, .mkW, .awaitW 0 true false [],
      .mkR, .awaitR 1 true false []]
    Tidy (St.init 0) es ∧ ((exec 0 es).W 0).status = .done := by decide

example : ((exec 0 [.mkR, .awaitR 0 true false []]).R 0).slot = true ∧
    ((exec 0 [.mkW, .awaitW 0 true false []]).W 0).slot = true := by decide

end Cobalt.Chan
