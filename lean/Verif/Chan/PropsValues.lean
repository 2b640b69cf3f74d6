import Verif.Chan.Closed
/-!
# C03 to C06: limits, no invention, no loss, failed operations

These hold for any number of producers and consumers and any schedule, up to the
first undefined behaviour.
-/
namespace Cobalt.Chan

/-- **C03**: the buffer never holds more than the limit. -/
theorem C03_limit (cap : Nat) (es : List Ev) (hu : (exec cap es).ub = false) :
    (exec cap es).buf.length ≤ cap := by
  rcases WF.exec cap es with h | h
  · rw [hu] at h; simp at h
  · have := h.len
    rwa [exec_cap] at this

/-- **C03**: awaiting a write on an open channel whose limit is reached suspends
(unless the write was interrupted before, or the queue holds an interrupted read,
see C09). -/
theorem C03_full_suspends (cap : Nat) (es : List Ev) (hu : (exec cap es).ub = false) (i : Nat)
    (hf : ((exec cap es).W i).status = .fresh) (hk : ((exec cap es).W i).cancelled = false)
    (hc : (exec cap es).closed = false) (hfull : (exec cap es).buf.length = cap)
    (hs : (exec cap es).noStale) (conn txn : Bool) (hits : List Tok) :
    (((exec cap es).step (.awaitW i conn txn hits)).W i).status = .susp := by
  have h : WF (exec cap es) none := by
    rcases WF.exec cap es with h | h
    · rw [hu] at h; simp at h
    · exact h
  have hcap := exec_cap cap es
  have hwt := (noStale_wait h hs).1
  simp only [St.step, hu, Bool.false_eq_true, if_false, awaitW_eq, hf, ne_eq, not_true_eq_false]
  rw [if_neg (by simp [St.writeReady, hc, hfull, hcap, hk])]
  split
  · simp [St.queueW, upd_apply]
  · rename_i j rest hq
    rw [if_pos (hwt j (by simp [hq])), resumeR_statusW, hits_statusW]
    · simp [St.giveTo, St.handW, upd_apply]
    · simp [St.giveTo, St.handW, upd_apply]

/-- **C03**: if no reader waits, nothing else happens: the write reports nothing
and the buffer is not touched. -/
theorem C03_full_waits (cap : Nat) (es : List Ev) (hu : (exec cap es).ub = false) (i : Nat)
    (hf : ((exec cap es).W i).status = .fresh) (hk : ((exec cap es).W i).cancelled = false)
    (hc : (exec cap es).closed = false) (hfull : (exec cap es).buf.length = cap)
    (hr : (exec cap es).rq = []) (conn txn : Bool) (hits : List Tok) :
    let s' := (exec cap es).step (.awaitW i conn txn hits)
    (s'.W i).status = .susp ∧ s'.buf = (exec cap es).buf ∧ s'.log = (exec cap es).log ++ [.startW i] := by
  have hcap := exec_cap cap es
  simp only [St.step, hu, Bool.false_eq_true, if_false, awaitW_eq, hf, ne_eq, not_true_eq_false]
  rw [if_neg (by simp [St.writeReady, hc, hfull, hcap, hk])]
  rw [hr]
  simp [St.queueW, upd_apply]

/-- Limit 1: the buffer is full after one write, the second write suspends. -/
example : let es := [Ev.mkW, .awaitW 0 true false [], .mkW]
    (exec 1 es).ub = false ∧ ((exec 1 es).W 1).status = .fresh ∧ ((exec 1 es).W 1).cancelled = false ∧
    (exec 1 es).closed = false ∧ (exec 1 es).buf.length = 1 ∧ (exec 1 es).rq = [] := by decide

/-- **C04**: no value is returned twice, and every returned value is that of a
write awaited on this channel. -/
theorem C04_no_invention (cap : Nat) (es : List Ev) (hu : (exec cap es).ub = false) :
    (delivered (exec cap es).log).Nodup ∧
    ∀ w ∈ delivered (exec cap es).log, Obs.startW w ∈ (exec cap es).log := by
  rcases exec_inv cap es with h | ⟨h, t⟩
  · rw [hu] at h; simp at h
  · refine ⟨t.ndD, fun w hw => ?_⟩
    rcases t.srcD w hw with h1 | h1
    · exact t.dirSt w h1
    · exact t.esW w _ h1

/-- **C04**: and no read ends twice. -/
theorem C04_one_result (cap : Nat) (es : List Ev) (hu : (exec cap es).ub = false) :
    (endedR (exec cap es).log).Nodup ∧ (endedW (exec cap es).log).Nodup := by
  rcases exec_inv cap es with h | ⟨h, t⟩
  · rw [hu] at h; simp at h
  · exact ⟨t.ndER, t.ndEW⟩

/-- Two producers and two consumers, limit 1, all run to the end. -/
def sched2 : List Ev :=
  [.mkR, .awaitR 0 true false [], .mkR, .awaitR 1 true false [],
   .mkW, .awaitW 0 true false [], .run 0, .mkW, .awaitW 1 true false [], .run 0]

example : (exec 1 sched2).ub = false ∧ delivered (exec 1 sched2).log = [0, 1] := by decide

/-- **C05 is violated**: with two producers a value whose write succeeded is
overwritten. Limit 1: 0 is buffered, writes 1 and 2 wait; a read takes 0 and
posts write 1; a second read finds the buffer empty, takes value 2 directly; the
producer of 2 writes 3 into the free place; write 1 then resumes, finds the buffer
full and overwrites 3. (The reader of 2 then returns 1 and puts 2 back.) -/
theorem C05_value_lost :
    ∃ es, (exec 1 es).ub = false ∧ Tidy (St.init 1) es ∧ Prompt (St.init 1) es ∧
      Obs.doneW 3 .ok ∈ (exec 1 es).log ∧ 3 ∉ delivered (exec 1 es).log ∧
      (exec 1 es).buf = [2] ∧ (exec 1 es).posted = [] ∧ (exec 1 es).rq = [] ∧
      (exec 1 es).asserted = true :=
  ⟨[.mkW, .awaitW 0 true false [], .mkW, .awaitW 1 true false [], .mkW, .awaitW 2 true false [],
    .mkR, .awaitR 0 true false [], .mkR, .awaitR 1 true false [], .mkW, .awaitW 3 true false [],
    .run 0, .run 0], by decide⟩

/-- **C05 is violated**: with two consumers a woken reader finds nothing and
dereferences an empty optional (impl/channel.hpp:181). Read 0 waits; a write
fills the buffer and posts read 0; read 1 takes the value first. -/
theorem C05_woken_reader_finds_nothing :
    ∃ es, Tidy (St.init 1) es ∧ Prompt (St.init 1) es ∧ (exec 1 es).ub = true :=
  ⟨[.mkR, .awaitR 0 true false [], .mkW, .awaitW 0 true false [], .mkR, .awaitR 1 true false [],
    .run 0], by decide⟩

/-- **C05**, what holds for any number of producers and consumers: as long as no
assertion failed, a value whose write succeeded is buffered, returned, or in the
hands of a reader.

Missing for the full property: it is false, see the two theorems above. -/
theorem C05_kept_partial (cap : Nat) (es : List Ev) (hu : (exec cap es).ub = false)
    (ha : (exec cap es).asserted = false) (w : Nat) (hw : Obs.doneW w .ok ∈ (exec cap es).log) :
    w ∈ (exec cap es).buf ∨ w ∈ delivered (exec cap es).log ∨ (exec cap es).inHand w := by
  rcases exec_inv cap es with h | ⟨h, t⟩
  · rw [hu] at h; simp at h
  · exact t.keep ha w (Or.inr hw)

/-- A multi-producer multi-consumer run without a failed assertion. -/
example : (exec 1 sched2).ub = false ∧ (exec 1 sched2).asserted = false ∧
    Obs.doneW 1 .ok ∈ (exec 1 sched2).log := by decide

/-- **C06**: the value of a write that failed is never returned by a read, nor
buffered, nor handed to a reader. -/
theorem C06_failed_write (cap : Nat) (es : List Ev) (hu : (exec cap es).ub = false)
    (w : Nat) (res : WRes) (hr : res ≠ .ok) (hw : Obs.doneW w res ∈ (exec cap es).log) :
    w ∉ delivered (exec cap es).log ∧ w ∉ (exec cap es).buf ∧ ¬ (exec cap es).inHand w := by
  rcases exec_inv cap es with h | ⟨h, t⟩
  · rw [hu] at h; simp at h
  · have hno : Obs.doneW w .ok ∉ (exec cap es).log := by
      intro hok
      exact hr (one_resultW t.ndEW hw hok)
    have hnd : ((exec cap es).W w).direct ≠ true := fun hd => hr (t.dirOkW w res hw hd)
    refine ⟨fun hd => ?_, fun hb => ?_, fun ⟨i, _, hd⟩ => hnd (t.dirW i w hd)⟩
    · rcases t.srcD w hd with h1 | h1
      · exact hnd h1
      · exact hno h1
    · rcases t.srcB w hb with h1 | h1
      · exact hnd h1
      · exact hno h1

/-- **C06**: a read that failed was never handed a value. -/
theorem C06_failed_read_had_nothing (cap : Nat) (es : List Ev) (hu : (exec cap es).ub = false)
    (i : Nat) (res : RRes) (hr : ∀ w, res ≠ .value w) (hi : Obs.doneR i res ∈ (exec cap es).log) :
    ((exec cap es).R i).direct = none := by
  rcases exec_inv cap es with h | ⟨h, t⟩
  · rw [hu] at h; simp at h
  · cases hd : ((exec cap es).R i).direct with
    | none => rfl
    | some d =>
      obtain ⟨w, hw⟩ := t.dirOkR i res d hi hd
      exact absurd hw (hr w)

/-- **C06**: whatever happens, in whatever state, the buffer changes only if some
operation succeeds. So operations that fail leave it alone. -/
theorem C06_failures_keep_buffer (cap : Nat) (es : List Ev) (e : Ev)
    (hd : delivered (exec cap (es ++ [e])).log = delivered (exec cap es).log)
    (ha : accepted (exec cap (es ++ [e])).log = accepted (exec cap es).log) :
    (exec cap (es ++ [e])).buf = (exec cap es).buf :=
  (Rel.exec cap es [e]).same hd ha

/-- **C06**: and a step in which no read succeeds keeps every buffered value in
its place, as long as no assertion fails. -/
theorem C06_only_reads_consume (cap : Nat) (es : List Ev) (e : Ev)
    (hd : delivered (exec cap (es ++ [e])).log = delivered (exec cap es).log)
    (ha : (exec cap (es ++ [e])).asserted = false) :
    (exec cap es).buf <+: (exec cap (es ++ [e])).buf :=
  (Rel.exec cap es [e]).pre hd ha

/-- A queued write is cancelled and fails; a queued read is cancelled by close;
with a value in the buffer. -/
example : let es := [Ev.mkW, .awaitW 0 true false [], .mkW, .awaitW 1 true false [], .cancelW 1, .run 0]
    (exec 1 es).ub = false ∧ Obs.doneW 1 .aborted ∈ (exec 1 es).log ∧ (exec 1 es).buf = [0] := by decide

example : let es := [Ev.mkR, .awaitR 0 true false [], .close, .run 0]
    (exec 1 es).ub = false ∧ Obs.doneR 0 .brokenPipe ∈ (exec 1 es).log := by decide

/-- The last event of this schedule fails a write while a value is buffered. -/
example : let es := [Ev.mkW, .awaitW 0 true false [], .mkW, .awaitW 1 true false [], .cancelW 1]
    delivered (exec 1 (es ++ [.run 0])).log = delivered (exec 1 es).log ∧
    accepted (exec 1 (es ++ [.run 0])).log = accepted (exec 1 es).log ∧
    (exec 1 (es ++ [.run 0])).asserted = false ∧
    (exec 1 (es ++ [.run 0])).log ≠ (exec 1 es).log := by decide

end Cobalt.Chan
