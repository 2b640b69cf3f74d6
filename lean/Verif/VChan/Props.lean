import Verif.VChan.Mod
/-! Properties C11, C12 and C57: `channel<void>`. -/
namespace Cobalt.VChan

open Chan (Status Tok upd)

/-- **C11** (any limit, one producer, one consumer, any schedule with
cancellations and interruptions at any point, as long as the channel is open and
nothing undefined happened): successful reads, stored tokens and tokens handed to
a read that has not resumed yet add up to the tokens written, counting those
taken from a write that has not resumed yet; and no more than `limit` tokens are
stored. As everything is an equation of natural numbers about `n_` as read by the
code, the counter has not wrapped around. -/
theorem C11_tokens (limit : BitVec 64) (es : List Ev) (hs : Spsc (St.init limit) es)
    (ho : (exec limit es).closed = false) (hu : (exec limit es).ub = false) :
    reads (exec limit es).log + (exec limit es).n.toNat + (exec limit es).handed =
      writes (exec limit es).log + (exec limit es).given ∧
    (exec limit es).n.toNat ≤ limit.toNat := by
  have k := spsc_steps (WF.init limit) ⟨J.init limit, by simp [St.v, St.init, St.given, St.handed, heldCount, reads, writes]⟩ es hs ho hu
  have hl : ∀ (es : List Ev) (s : St), (s.steps es).limit = s.limit := limit_steps
  refine ⟨?_, ?_⟩
  · have := k.eq
    simp only [St.v] at this
    unfold exec
    omega
  · have := k.j.lim
    unfold exec
    rw [hl] at this
    exact this

/-- **C11**, the remaining hypothesis: programs that destroy an interrupted
operation before they go on have no undefined behaviour, with any number of
producers and consumers. -/
theorem C11_tidy_defined (limit : BitVec 64) (es : List Ev) (ht : Tidy (St.init limit) es) :
    (exec limit es).ub = false :=
  tidy_steps (WF.init limit) rfl es ht

/-- A producer blocked by the limit, a cancelled write, a token handed over, a
consumer that has to wait. -/
def sched : List Ev :=
  [.mkW, .awaitW 0 true false [], .mkW, .awaitW 1 true false [], .cancelW 1, .run 0,
   .mkR, .awaitR 0 true false [], .mkR, .awaitR 1 true false [], .mkW, .awaitW 2 true false [], .mkR]

example : reads (exec 1 sched).log = 1 ∧ (exec 1 sched).n = 1#64 ∧ writes (exec 1 sched).log = 2 ∧
    (exec 1 sched).posted = [.r 1] ∧ Obs.doneW 1 .aborted ∈ (exec 1 sched).log := by decide

example : (exec 1 sched).closed = false ∧ (exec 1 sched).ub = false ∧ Tidy (St.init 1) sched := by
  decide

example : Spsc (St.init 1) sched := by
  simp only [sched, Spsc, true_and, and_true]
  refine ⟨?_, ?_, ?_, ?_, ?_⟩
  all_goals (intro i; rcases i with _ | _ | _ | i <;> first | decide | exact fun h => by cases h)

/-- A token handed over (limit 0): the writer is resumed first, the read still
holds the token. -/
example : (exec 0 [.mkW, .awaitW 0 true false [], .mkR, .awaitR 0 true false []]).handed = 1 ∧
    writes (exec 0 [.mkW, .awaitW 0 true false [], .mkR, .awaitR 0 true false []]).log = 1 := by decide

/-- Without `Tidy` there is undefined behaviour: an interrupted read stays
linked and is resumed through an empty handle. -/
theorem C11_interrupted_is_resumed :
    ∃ es, (exec 0 es).ub = true ∧ Spsc (St.init 0) es := by
  refine ⟨[.mkR, .awaitR 0 true false [], .intR 0, .mkW, .awaitW 0 true false []], by decide, ?_⟩
  simp only [Spsc, true_and, and_true]
  refine ⟨?_, ?_⟩
  all_goals (intro i; rcases i with _ | _ | _ | i <;> first | decide | exact fun h => by cases h)

/-- **C57 is violated**: with two consumers the counter underflows. Reader 0
waits; a write stores a token and posts reader 0; reader 1 takes the token
first; reader 0 then decrements the empty counter to 2^64-1, and both reads
succeed though one token was written. -/
theorem C57_underflow :
    ∃ es, Tidy (St.init 1) es ∧ (exec 1 es).ub = false ∧ (exec 1 es).asserted = false ∧
      writes (exec 1 es).log = 1 ∧ reads (exec 1 es).log = 2 ∧ (exec 1 es).given = 0 ∧
      (exec 1 es).n.toNat = 2 ^ 64 - 1 :=
  ⟨[.mkR, .awaitR 0 true false [], .mkW, .awaitW 0 true false [], .mkR, .awaitR 1 true false [], .run 0],
   by decide⟩

/-- **C57**, producers: two producers exceed the limit in the same way: a posted
writer finds the place taken by another one that did not have to wait. -/
theorem C57_limit_exceeded :
    ∃ es, Tidy (St.init 1) es ∧ (exec 1 es).ub = false ∧ (exec 1 es).asserted = false ∧
      reads (exec 1 es).log = 1 ∧ writes (exec 1 es).log = 3 ∧
      (exec 1 es).n.toNat = 2 :=
  ⟨[.mkW, .awaitW 0 true false [], .mkW, .awaitW 1 true false [], .mkR, .awaitR 0 true false [],
    .mkW, .awaitW 2 true false [], .run 0], by decide⟩

/-- **C57** (the part that holds is C11, for one producer and one consumer).
Full statement: for every schedule `es`, with any number of producers and
consumers, the equation and the bound below hold. Missing: several producers or
consumers, where it is false. -/
theorem C57_tokens_partial (limit : BitVec 64) (es : List Ev) (hs : Spsc (St.init limit) es)
    (ht : Tidy (St.init limit) es) (ho : (exec limit es).closed = false) :
    reads (exec limit es).log + (exec limit es).n.toNat + (exec limit es).handed =
      writes (exec limit es).log + (exec limit es).given ∧
    (exec limit es).n.toNat ≤ limit.toNat :=
  C11_tokens limit es hs ho (C11_tidy_defined limit es ht)

/-- **C57**, for any number of producers and consumers and any schedule, as long as the channel is open: the
equation holds modulo 2^64. No token is lost or made up but by the counter running under. -/
theorem C57_modulo (limit : BitVec 64) (es : List Ev) (ho : (exec limit es).closed = false)
    (hu : (exec limit es).ub = false) :
    (reads (exec limit es).log + (exec limit es).n.toNat + (exec limit es).handed) % 2 ^ 64 =
      (writes (exec limit es).log + (exec limit es).given) % 2 ^ 64 := by
  have m := mod_steps (WF.init limit)
    (by simp [M, St.v, St.init, St.given, St.handed, heldCount, reads, writes]) es ho hu
  unfold M at m
  have hn := congrArg BitVec.toNat m
  rw [BitVec.toNat_ofInt] at hn
  unfold St.v at hn
  unfold exec
  omega

/-- **C57** exactly: after fewer than 2^64 writes the counter is right if and only if not more was read than
written. (`asserted` aside, running under is the only way in which it goes wrong.) -/
theorem C57_exact (limit : BitVec 64) (es : List Ev) (ho : (exec limit es).closed = false)
    (hu : (exec limit es).ub = false)
    (hw : writes (exec limit es).log + (exec limit es).given < 2 ^ 64) :
    (reads (exec limit es).log + (exec limit es).n.toNat + (exec limit es).handed =
      writes (exec limit es).log + (exec limit es).given) ↔
    reads (exec limit es).log + (exec limit es).handed ≤ writes (exec limit es).log + (exec limit es).given := by
  have h := C57_modulo limit es ho hu
  have hlt := (exec limit es).n.isLt
  omega

/-- Two producers and two consumers; the counter is right. -/
example :
    let es : List Ev := [.mkR, .awaitR 0 true false [], .mkR, .awaitR 1 true false [], .mkW, .awaitW 0 true false [],
      .mkW, .awaitW 1 true false [], .run 0, .mkW, .awaitW 2 true false []]
    (exec 1 es).closed = false ∧ (exec 1 es).ub = false ∧ 2 ≤ reads (exec 1 es).log ∧
      reads (exec 1 es).log + (exec 1 es).n.toNat + (exec 1 es).handed =
        writes (exec 1 es).log + (exec 1 es).given := by decide

/-- **C12 is violated**: a token written before `close` cannot be read after it. -/
theorem C12_stored_token_lost :
    ∃ es, Tidy (St.init 1) es ∧ writes (exec 1 es).log = 1 ∧ (exec 1 es).n = 1#64 ∧
      (exec 1 es).log = [.doneW 0 .ok, .doneR 0 .brokenPipe] :=
  ⟨[.mkW, .awaitW 0 true false [], .close, .mkR, .awaitR 0 true false []], by decide⟩

/-- **C12 is violated**: a token handed to a waiting read is lost if the channel
is closed before the read resumes, though the write succeeded. -/
theorem C12_handed_token_lost :
    ∃ es, Tidy (St.init 0) es ∧
      (exec 0 es).log = [.doneW 0 .ok, .doneR 0 .brokenPipe] :=
  ⟨[.mkW, .awaitW 0 true false [], .mkR, .awaitR 0 true false [], .close, .run 0], by decide⟩

/-- **C12**, what the code does instead: once the channel is closed no read ever
succeeds again. -/
theorem C12_no_read_after_close (limit : BitVec 64) (es es' : List Ev)
    (hc : (exec limit es).closed = true) :
    reads (exec limit (es ++ es')).log = reads (exec limit es).log := by
  have : exec limit (es ++ es') = (exec limit es).steps es' := by simp [exec, St.steps]
  rw [this]
  exact reads_closed hc es'

/-- **C12** exactly, for one producer and one consumer: whatever is done after the close, the tokens written before
it are all read if and only if at the close none was stored and none was on its way to a read. Those that were are
lost. -/
theorem C12_exact (limit : BitVec 64) (es es' : List Ev) (hs : Spsc (St.init limit) es)
    (ho : (exec limit es).closed = false) (hu : (exec limit es).ub = false) :
    reads (exec limit (es ++ .close :: es')).log + (exec limit es).n.toNat + (exec limit es).handed =
      writes (exec limit es).log + (exec limit es).given ∧
    (reads (exec limit (es ++ .close :: es')).log = writes (exec limit es).log + (exec limit es).given ↔
      (exec limit es).n = 0 ∧ (exec limit es).handed = 0) := by
  have h1 : exec limit (es ++ [.close]) = (exec limit es).close := by
    have : (exec limit es).step .close = (exec limit es).close := by simp [St.step, hu]
    simpa [exec, St.steps] using this
  have h2 : reads (exec limit (es ++ .close :: es')).log = reads (exec limit es).log := by
    have := C12_no_read_after_close limit (es ++ [.close]) es' (by rw [h1]; rfl)
    rw [List.append_assoc] at this
    rw [show es ++ .close :: es' = es ++ ([.close] ++ es') from rfl, this, h1]; rfl
  have h3 := (C11_tokens limit es hs ho hu).1
  have h4 : (exec limit es).n = 0 ↔ (exec limit es).n.toNat = 0 :=
    ⟨fun h => by rw [h]; rfl, fun h => BitVec.eq_of_toNat_eq (by simpa using h)⟩
  rw [h2, h4]
  omega

/-- The producer is ahead by one token when the channel is closed. -/
example : Spsc (St.init 1) sched ∧ (exec 1 sched).n = 1#64 := by
  refine ⟨?_, by decide⟩
  simp only [sched, Spsc, true_and, and_true]
  refine ⟨?_, ?_, ?_, ?_, ?_⟩
  all_goals (intro i; rcases i with _ | _ | _ | i <;> first | decide | exact fun h => by cases h)

/-- **C12**: a write that waits when the channel is closed ends with `broken_pipe`, whatever happens later. -/
theorem C12_queued_write (limit : BitVec 64) (es es' : List Ev) (hu : (exec limit es).ub = false) (i : Nat)
    (hi : i ∈ (exec limit es).wq) (hx : ∀ res, Obs.doneW i res ∉ (exec limit es).log) (res : Res)
    (hr : Obs.doneW i res ∈ (exec limit (es ++ .close :: es')).log) : res = .brokenPipe := by
  have hw : WF (exec limit es) none := by
    rcases WF.exec limit es with h | h
    · rw [hu] at h; cases h
    · exact h
  have hst : exec limit (es ++ .close :: es') = (exec limit es).close.steps es' := by
    have : (exec limit es).step .close = (exec limit es).close := by simp [St.step, hu]
    simp [exec, St.steps] at this ⊢
    rw [this]
  have hsteps : ∀ (l : List Ev) (s : St), (s.ub = true ∨ WF s none) → Piped i s (s.steps l) := by
    intro l
    induction l with
    | nil => exact fun s _ => Piped.refl i s
    | cons e l ih =>
      intro s hs
      rcases hs with hs | hs
      · have : s.step e = s := by unfold St.step; rw [if_pos hs]
        rw [show s.steps (e :: l) = (s.step e).steps l from rfl, this]
        exact ih s (Or.inl hs)
      · exact (Piped.step hs i e).trans (ih _ (WF.step hs e))
  have hc : ((exec limit es).close.W i).closedF = true := by simp [St.close, hi]
  rw [hst] at hr
  rcases (hsteps es' _ (Or.inr hw.close) hc).2 res hr with h | h
  · exact absurd h (hx res)
  · exact h

/-- Not vacuous: such a write exists, and its end is reached. -/
example : 0 ∈ (exec 0 [.mkW, .awaitW 0 true false []]).wq ∧ (exec 0 [.mkW, .awaitW 0 true false []]).log = [] ∧
    (exec 0 ([.mkW, .awaitW 0 true false []] ++ .close :: [.run 0])).log = [.doneW 0 .brokenPipe] := by decide

/-- **C12** (the part that holds). Full statement: also with `closed = true`.
While the channel is open, a read awaited when a token is stored, and a posted
read that was handed a token, succeed. -/
theorem C12_open_partial (limit : BitVec 64) (es : List Ev) (hu : (exec limit es).ub = false)
    (ho : (exec limit es).closed = false) :
    (∀ i conn txn hits, ((exec limit es).R i).status = .fresh → ((exec limit es).R i).cancelled = false →
      (exec limit es).n ≠ 0 →
      Obs.doneR i .ok ∈ (exec limit (es ++ [.awaitR i conn txn hits])).log) ∧
    (∀ i k, ((exec limit es).R i).direct = true → (exec limit es).posted[k]? = some (.r i) →
      Obs.doneR i .ok ∈ (exec limit (es ++ [.run k])).log) := by
  have h : WF (exec limit es) none := by
    rcases WF.exec limit es with h | h
    · rw [hu] at h; cases h
    · exact h
  have hst : ∀ e, exec limit (es ++ [e]) = (exec limit es).step e := by
    intro e; simp [exec, St.steps]
  refine ⟨?_, ?_⟩
  · intro i conn txn hits hf hc hn
    rw [hst]
    have hr : (exec limit es).readReady = true := by
      simp only [St.readReady, Bool.or_eq_true]
      left
      rw [ult_iff]
      have : (exec limit es).n.toNat ≠ 0 := fun e => hn (BitVec.eq_of_toNat_eq (by simpa using e))
      simp; omega
    simp only [St.step]
    rw [if_neg (by simp [hu]), awaitR_eq, if_neg (by simp [hf]), if_pos (Or.inl hr),
      (resumeR_log _ _).2]
    simp [ho, hc]
  · intro i k hd hk
    rw [hst]
    have hc := h.rdir i hd
    simp only [St.step]
    rw [if_neg (by simp [hu])]
    unfold St.run
    rw [hk]
    dsimp only
    rw [(resumeR_log _ _).2]
    simp [ho, hc]

example : ∃ es : List Ev, (exec 0 es).closed = false ∧ (exec 0 es).posted[0]? = some (.r 0) ∧
    ((exec 0 es).R 0).direct = true :=
  ⟨[.mkW, .awaitW 0 true false [], .mkR, .awaitR 0 true false []], by decide⟩

end Cobalt.VChan
