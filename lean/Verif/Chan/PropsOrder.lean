import Verif.Chan.Closed
/-!
# C01, C02, C10: order, exactly-once delivery and wake-ups of `channel<T>`
-/
namespace Cobalt.Chan

/-- **C01** (limit 0, any number of readers and writers): a schedule that
destroys interrupted operations before it does anything else with the channel
never reaches undefined behaviour. -/
theorem C01_no_ub_partial (es : List Ev) (ht : Tidy (St.init 0) es) : (exec 0 es).ub = false :=
  (tidy0 es _ I0.init ht).1.ub

/-- **C01** (limit 0, any number of readers and writers, any `Prompt` schedule
that has not reached undefined behaviour): no failed assertion; every value read
was written by an awaited write and no write supplies two reads; and
earlier-awaited reads get the values of earlier-awaited writes.

Missing for the full property: without `Prompt` it is false, see
`C01_late_write_asserts`; undefined behaviour can be reached by schedules that
are not `Tidy`, see `C09_interrupted_is_resumed`. -/
theorem C01_rendezvous_partial (es : List Ev) (hp : Prompt (St.init 0) es) (hu : (exec 0 es).ub = false) :
    (exec 0 es).asserted = false ∧
    (delivered (exec 0 es).log).Nodup ∧
    (∀ i v, Obs.doneR i (.value v) ∈ (exec 0 es).log →
      Obs.startW v ∈ (exec 0 es).log ∧
      ∀ j w, Obs.doneR j (.value w) ∈ (exec 0 es).log →
        (Before (exec 0 es).log (.startR i) (.startR j) ↔
         Before (exec 0 es).log (.startW v) (.startW w))) := by
  obtain ⟨h, q⟩ : I0 (exec 0 es) none ∧ Q0 (exec 0 es) none := by
    rcases prompt0 es _ I0.init ⟨rfl, by simp [St.init]⟩ hp with h | h
    · rw [show (St.init 0).steps es = exec 0 es from rfl, hu] at h; simp at h
    · exact h
  have hd : ∀ i v, Obs.doneR i (.value v) ∈ (exec 0 es).log → ((exec 0 es).R i).direct = some v :=
    h.z.val
  refine ⟨q.noAss, h.tk.ndD, fun i v hi => ⟨(h.o.seen i v (hd i v hi)).2, fun j w hj => ?_⟩⟩
  have h1 := h.o.seen i v (hd i v hi)
  have h2 := h.o.pair i j v w (hd i v hi) (hd j w hj)
  exact ⟨fun hb => ⟨h1.2, h2.1 hb.2⟩, fun hb => ⟨h1.1, h2.2 hb.2⟩⟩

/-- **C01**: a write that reports success has its value handed to one read. That
read has returned it, or it has already been posted to the executor and in every
continuation returns nothing else. -/
theorem C01_success_means_handed_partial (es : List Ev)
    (hp : Prompt (St.init 0) es) (hu : (exec 0 es).ub = false) (w : Nat) (hw : Obs.doneW w .ok ∈ (exec 0 es).log) :
    ∃ i, (Obs.doneR i (.value w) ∈ (exec 0 es).log ∨
        (((exec 0 es).R i).status = .susp ∧ Tok.r i ∈ (exec 0 es).posted)) ∧
      ∀ es' res, Obs.doneR i res ∈ (exec 0 (es ++ es')).log → res = .value w := by
  obtain ⟨h, q⟩ : I0 (exec 0 es) none ∧ Q0 (exec 0 es) none := by
    rcases prompt0 es _ I0.init ⟨rfl, by simp [St.init]⟩ hp with h | h
    · rw [show (St.init 0).steps es = exec 0 es from rfl, hu] at h; simp at h
    · exact h
  have key : ∀ i, ((exec 0 es).R i).direct = some w →
      ∀ es' res, Obs.doneR i res ∈ (exec 0 (es ++ es')).log → res = .value w := by
    intro i hi es' res hr
    have hh : Holds i w (exec 0 es) := by
      refine ⟨hi, h.wf.rdir i w hi, h.z.cap0, h.z.buf0, fun res hres => ?_⟩
      obtain ⟨v, rfl⟩ := h.tk.dirOkR i res w hres hi
      have := h.z.val i v hres
      rw [hi] at this
      simp at this
      rw [this]
    rw [exec_append] at hr
    exact (hh.steps es' (Or.inr h.wf)).res res hr
  rcases h.tk.keep q.noAss w (Or.inr hw) with hb | hd | ⟨i, h1, h2⟩
  · rw [h.z.buf0] at hb; simp at hb
  · obtain ⟨i, hi⟩ := (mem_delivered _ _).1 hd
    exact ⟨i, Or.inl hi, key i (h.z.val i w hi)⟩
  · refine ⟨i, Or.inr ⟨h1, ?_⟩, key i h2⟩
    rcases h.wf.rsusp i h1 with hwt | hpo | hcu
    · have h3 := h.wf.rlink i (h.wf.rwait i hwt).2
      rw [h2] at h3
      simp at h3
    · exact hpo
    · simp at hcu

/-- The schedule used below: two reads wait, two writes come and hand over their
values, everything posted is run (in the other order). -/
def sched0 : List Ev :=
  [.mkR, .mkR, .awaitR 0 true false [], .awaitR 1 true false [], .mkW, .mkW,
   .awaitW 0 true false [], .awaitW 1 true false [], .run 1, .run 0]

example : (exec 0 sched0).log =
    [.startR 0, .startR 1, .startW 0, .doneR 0 (.value 0), .startW 1, .doneR 1 (.value 1),
     .doneW 1 .ok, .doneW 0 .ok] := by decide

/-- The hypotheses of the theorems hold for it. -/
example : Tidy (St.init 0) sched0 ∧ Prompt (St.init 0) sched0 ∧ Obs.doneW 0 .ok ∈ (exec 0 sched0).log := by
  decide

/-- … and, without `Tidy`, for one in which an interrupted write is still in the
queue, in front of a waiting write, when the channel is closed. -/
def sched0' : List Ev :=
  sched0 ++ [.mkW, .awaitW 2 true true [], .intW 2, .mkW, .awaitW 3 true false [], .close, .run 0]

example : Prompt (St.init 0) sched0' ∧ ¬ Tidy (St.init 0) sched0' ∧ (exec 0 sched0').ub = false ∧
    Obs.doneW 3 .brokenPipe ∈ (exec 0 sched0').log := by decide

/-- **C01**, no deadlock: with nothing scheduled, readers and writers do not both
wait. -/
theorem C01_no_deadlock (es : List Ev) (hu : (exec 0 es).ub = false)
    (hn : (exec 0 es).posted = []) :
    (∀ i, ((exec 0 es).R i).status ≠ .susp) ∨ (∀ i, ((exec 0 es).W i).status ≠ .susp) := by
  rcases exec_inv 0 es with h | ⟨h, _⟩
  · rw [hu] at h; simp at h
  · rcases h.excl with hq | hq
    · left
      intro i hi
      rcases h.rsusp i hi with h1 | h1 | h1
      · have := (h.rwait i h1).2; simp [hq] at this
      · simp [hn] at h1
      · simp at h1
    · right
      intro i hi
      rcases h.wsusp i hi with h1 | h1 | h1
      · have := (h.wwait i h1).2; simp [hq] at this
      · simp [hn] at h1
      · simp at h1

example : (exec 0 (sched0 ++ [.mkR, .awaitR 2 true false []])).ub = false ∧
    (exec 0 (sched0 ++ [.mkR, .awaitR 2 true false []])).posted = [] ∧
    ((exec 0 (sched0 ++ [.mkR, .awaitR 2 true false []])).R 2).status = .susp := by decide

/-- **C01 is violated** without `Prompt`: a write made before `close` and awaited
after it reports success although nobody ever gets the value, and trips the
assertion `!chn->buffer_.full()` (impl/channel.hpp:298). -/
theorem C01_late_write_asserts :
    ∃ es, Tidy (St.init 0) es ∧ (exec 0 es).asserted = true ∧
      Obs.doneW 0 .ok ∈ (exec 0 es).log ∧ delivered (exec 0 es).log = [] ∧ (exec 0 es).buf = [] :=
  ⟨[.mkW, .close, .awaitW 0 true false []], by decide⟩

/-- Values handed to the (at most one) reader that has not been resumed yet. -/
def InHandList (s : St) (hand : List Nat) : Prop := ∀ w, w ∈ hand ↔ s.inHand w

/-- **C02** (any limit, one producer, one consumer): a `Prompt` schedule that
destroys interrupted operations at once never reaches undefined behaviour. -/
theorem C02_no_ub_partial (cap : Nat) (es : List Ev) (ht : Tidy (St.init cap) es)
    (hp : Prompt (St.init cap) es) (hs : Spsc (St.init cap) es) : (exec cap es).ub = false :=
  (spsc_exec ht hp hs).2.2.ub

/-- **C02** (any limit, one producer, one consumer, `Prompt` schedules that have
not reached undefined behaviour): what reads returned, then the buffer, then the at most one value
already handed to a waiting reader, is exactly what the channel accepted, in the
order it was written; nothing is accepted twice, every successful write is
accepted, and there is no failed assertion.

Missing for the full property: without `Prompt` it is false, see
`C02_late_write_loses_value`; undefined behaviour can be reached by schedules
that are not `Tidy`, see `C02_interrupted_ub`. -/
theorem C02_fifo_partial (cap : Nat) (es : List Ev)
    (hp : Prompt (St.init cap) es) (hs : Spsc (St.init cap) es) (hu : (exec cap es).ub = false) :
    (exec cap es).asserted = false ∧
    (∃ hand, hand.length ≤ 1 ∧ InHandList (exec cap es) hand ∧
      delivered (exec cap es).log ++ (exec cap es).buf ++ hand = (exec cap es).taken) ∧
    (exec cap es).taken.Nodup ∧
    (∀ w, Obs.doneW w .ok ∈ (exec cap es).log → w ∈ (exec cap es).taken) := by
  obtain ⟨h, t, j⟩ := (spsc_exec' hp hs).resolve_left (by simp [hu])
  refine ⟨j.noAss, ?_, j.ndS.filter _, ?_⟩
  · by_cases hd : ∃ i d, ((exec cap es).R i).status = .susp ∧ ((exec cap es).R i).direct = some d
    · obtain ⟨i, d, h1, h2⟩ := hd
      refine ⟨[d], by simp, ?_, j.fifo1 i d (Or.inl h1) h2⟩
      intro w
      simp only [List.mem_singleton]
      constructor
      · rintro rfl; exact ⟨i, h1, h2⟩
      · rintro ⟨k, h3, h4⟩
        have := j.oneR i k (Or.inl h1) (Or.inl h3)
        subst this
        rw [h2] at h4
        simpa using h4.symm
    · simp only [not_exists, not_and] at hd
      refine ⟨[], by simp, ?_, ?_⟩
      · intro w
        simp only [List.not_mem_nil, false_iff]
        rintro ⟨k, h3, h4⟩
        exact hd k w h3 h4
      · rw [List.append_nil]
        apply j.fifo0
        intro k hk
        simp only [St.actR, reduceCtorEq, or_false] at hk
        cases hk' : ((exec cap es).R k).direct with
        | none => rfl
        | some d => exact absurd hk' (hd k d hk)
  · intro w hw
    simp only [St.taken, List.mem_filter]
    refine ⟨(mem_startsW _ _).2 (t.esW w _ hw), ?_⟩
    simp [hw]

/-- Producer and consumer on a channel with limit 1: the second write has to
wait, the first read lets it go on. -/
def sched1 : List Ev :=
  [.mkW, .awaitW 0 true false [], .mkW, .awaitW 1 true false [], .mkR, .awaitR 0 true false [],
   .run 0, .mkR, .awaitR 1 true false [], .mkR, .awaitR 2 true false [], .mkW, .awaitW 2 true false [],
   .run 0]

example : delivered (exec 1 sched1).log = [0, 1, 2] ∧ (exec 1 sched1).taken = [0, 1, 2] := by decide

/-- The hypotheses hold for it: at each await nothing of the same kind is suspended. -/
example : Tidy (St.init 1) sched1 ∧ Prompt (St.init 1) sched1 ∧ Spsc (St.init 1) sched1 := by
  refine ⟨by decide, by decide, ?_⟩
  simp only [sched1, Spsc, true_and, and_true]
  refine ⟨?_, ?_, ?_, ?_, ?_, ?_⟩
  all_goals (intro i; rcases i with _ | _ | _ | i <;> first | decide | exact fun h => by cases h)

/-- Without `Tidy` the theorem still speaks about schedules like this one: the
interrupted second write stays in the queue, the third waits behind it. -/
def sched1' : List Ev :=
  [.mkW, .awaitW 0 true false [], .mkW, .awaitW 1 true true [], .intW 1, .mkW, .awaitW 2 true false []]

example : ¬ Tidy (St.init 1) sched1' ∧ Prompt (St.init 1) sched1' ∧ Spsc (St.init 1) sched1' ∧
    (exec 1 sched1').ub = false ∧ (exec 1 sched1').wq = [1, 2] ∧ (exec 1 sched1').taken = [0] := by
  refine ⟨by decide, by decide, ?_, by decide, by decide, by decide⟩
  simp only [sched1', Spsc, true_and, and_true]
  refine ⟨?_, ?_, ?_⟩
  all_goals (intro i; rcases i with _ | _ | _ | i <;> first | decide | exact fun h => by cases h)

/-- **C02 is violated**: the consumer's next read after that schedule resumes a
null coroutine. -/
theorem C02_interrupted_ub :
    ∃ es, Prompt (St.init 1) es ∧ Spsc (St.init 1) es ∧ (exec 1 es).ub = true := by
  refine ⟨sched1' ++ [.mkR, .awaitR 0 true false []], by decide, ?_, by decide⟩
  simp only [sched1', Spsc, List.cons_append, List.nil_append, true_and, and_true]
  refine ⟨?_, ?_, ?_, ?_⟩
  all_goals (intro i; rcases i with _ | _ | _ | i <;> first | decide | exact fun h => by cases h)

/-- **C02 is violated** without `Prompt`: with limit 1, a write made before
`close` and awaited after it overwrites the buffered value: 0 was accepted and
is lost. -/
theorem C02_late_write_loses_value :
    ∃ es, Tidy (St.init 1) es ∧ (exec 1 es).asserted = true ∧
      Obs.doneW 0 .ok ∈ (exec 1 es).log ∧
      delivered (exec 1 es).log = [] ∧ (exec 1 es).buf = [1] :=
  ⟨[.mkW, .awaitW 0 true false [], .mkW, .close, .awaitW 1 true false []], by decide⟩

/-- **C10** (any limit, one producer, one consumer, any schedule that has not
reached undefined behaviour): with nothing scheduled, a suspended read means nothing is buffered and no write is suspended;
a suspended write means the buffer is full and no read is suspended.

Missing for the full property: undefined behaviour can be reached, and then a
wake-up is lost, see `C10_violated`. -/
theorem C10_no_lost_wakeup_partial (cap : Nat) (es : List Ev)
    (hs : Spsc (St.init cap) es) (hu : (exec cap es).ub = false) (hn : (exec cap es).posted = []) :
    (∀ i, ((exec cap es).R i).status = .susp →
      (exec cap es).buf = [] ∧ ∀ k, ((exec cap es).W k).status ≠ .susp) ∧
    (∀ i, ((exec cap es).W i).status = .susp →
      (exec cap es).buf.length = cap ∧ ∀ k, ((exec cap es).R k).status ≠ .susp) := by
  have h : WF (exec cap es) none := by
    rcases WF.exec cap es with h | h
    · rw [hu] at h; simp at h
    · exact h
  cases hcl : (exec cap es).closed with
  | true =>
    obtain ⟨h1, h2⟩ := closed_posted h hcl
    rw [hn] at h1 h2
    exact ⟨fun i hi => by simpa using h1 i hi, fun i hi => by simpa using h2 i hi⟩
  | false =>
  have hp : Prompt (St.init cap) es := prompt_of_open es (Or.inr (WF.init cap)) hcl
  obtain ⟨_, t, j⟩ := (spsc_exec' hp hs).resolve_left (by simp [hu])
  have hr : ∀ i, ((exec cap es).R i).status = .susp → i ∈ (exec cap es).rq := by
    intro i hi
    rcases h.rsusp i hi with h1 | h1 | h1
    · exact (h.rwait i h1).2
    · simp [hn] at h1
    · simp at h1
  have hw : ∀ i, ((exec cap es).W i).status = .susp → i ∈ (exec cap es).wq := by
    intro i hi
    rcases h.wsusp i hi with h1 | h1 | h1
    · exact (h.wwait i h1).2
    · simp [hn] at h1
    · simp at h1
  have hc : (exec cap es).cap = cap := exec_cap cap es
  refine ⟨fun i hi => ⟨j.rqb (List.ne_nil_of_mem (hr i hi)), fun k hk => ?_⟩,
    fun i hi => ⟨(j.wqb (List.ne_nil_of_mem (hw i hi))).trans hc, fun k hk => ?_⟩⟩
  · rcases h.excl with h1 | h1
    · have := hr i hi; simp [h1] at this
    · have := hw k hk; simp [h1] at this
  · rcases h.excl with h1 | h1
    · have := hr k hk; simp [h1] at this
    · have := hw i hi; simp [h1] at this

/-- A state with a suspended write and nothing scheduled. -/
example : (exec 1 (sched1.take 4)).posted = [] ∧ ((exec 1 (sched1.take 4)).W 1).status = .susp := by decide

/-- … and one with an interrupted write in front of it. -/
example : (exec 1 sched1').posted = [] ∧ ((exec 1 sched1').W 2).status = .susp := by decide

/-- **C10 is violated**: read 0 is interrupted, read 1 waits behind it, a write
puts its value into the buffer and posts the null handle of read 0 instead of
waking read 1. -/
theorem C10_violated :
    ∃ es, Prompt (St.init 1) es ∧ Spsc (St.init 1) es ∧ (exec 1 es).ub = true ∧
      (exec 1 es).posted = [] ∧ (exec 1 es).buf = [0] ∧ ((exec 1 es).R 1).status = .susp := by
  refine ⟨[.mkR, .awaitR 0 true true [], .intR 0, .mkR, .awaitR 1 true false [], .mkW,
    .awaitW 0 true false []], by decide, ?_, by decide⟩
  simp only [Spsc, true_and, and_true]
  refine ⟨?_, ?_, ?_⟩
  all_goals (intro i; rcases i with _ | _ | _ | i <;> first | decide | exact fun h => by cases h)

end Cobalt.Chan
