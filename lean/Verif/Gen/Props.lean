import Verif.Gen.Run
/-! Properties C30, C31, C32 and C60: generators. -/
namespace Cobalt.Gen

open Prom (upd upd_apply)

/-! ## C30 -/

/-- **C30** in full, for `Push = void` or not: in every possible history nothing undefined
happens, what was delivered is what the body gave first, in that order, the next await
gives the next one, and an await that has not ended waits for a body that has not ended
and gave nothing that was not delivered. -/
def C30 (v : Bool) : Prop := ∀ es, Legal { void := v } es →
  (St.run v es).ub = false ∧
  delivered (St.run v es) <+: (spec es).outs ∧
  (∀ a u x rest, (St.run v es).can (.await a u) = true → (spec es).dropped = false →
    (spec es).outs = delivered (St.run v es) ++ x :: rest →
    (St.run v (es ++ [.await a u])).log = (a, x) :: (St.run v es).log) ∧
  ∀ a w, (St.run v es).aw a = some w → w.got = none → a ∉ (St.run v es).killed →
    (spec es).ended = false ∧ (spec es).outs = delivered (St.run v es)

/-- **C30** for the uses listed at `Tidy`: nothing undefined happens; what was delivered is
what the body gave first, in that order; no await ends twice. -/
theorem C30_order_partial (v : Bool) (es : List Ev) (ht : TidyRun {} { void := v } es) :
    (St.run v es).ub = false ∧ delivered (St.run v es) <+: (spec es).outs ∧
    ((St.run v es).log.map Prod.fst).Nodup :=
  have h := Inv.after ht
  ⟨h.ub, h.pre, h.once⟩

/-- **C30**: the next await gives what the body gave next, at once. -/
theorem C30_next_partial (v : Bool) (es : List Ev) {a u : Nat} {x : Got} {rest : List Got}
    (ht : TidyRun {} { void := v } (es ++ [.await a u])) (hd : (spec es).dropped = false)
    (hx : (spec es).outs = delivered (St.run v es) ++ x :: rest) :
    (St.run v (es ++ [.await a u])).log = (a, x) :: (St.run v es).log := by
  have split : ∀ (es : List Ev) p s, TidyRun p s (es ++ [.await a u]) →
      TidyRun p s es ∧ (s.steps es).can (.await a u) = true ∧ Tidy (p.steps es) (s.steps es) (.await a u) := by
    intro es
    induction es with
    | nil => intro p s h; exact ⟨trivial, h.1, h.2.1⟩
    | cons e es ih => intro p s h; obtain ⟨h1, h2, h3⟩ := h; exact ⟨⟨h1, h2, (ih _ _ h3).1⟩, (ih _ _ h3).2⟩
  obtain ⟨ht, hc, hta⟩ := split es _ _ ht
  have h := Inv.after ht
  change (St.run v es).can (.await a u) = true at hc
  change Tidy (spec es) (St.run v es) (.await a u) at hta
  have hrv := h.recv hd
  rw [h.del hd, List.append_cancel_left_eq] at hx
  rw [run_append]
  generalize St.run v es = s at *
  unfold St.step
  rw [if_neg (by simp [h.ub, hc])]
  simp only [Tidy] at hta
  cases hex : s.exc with
  | some e =>
    obtain ⟨hr, -⟩ := h.exc e hex
    have hb : s.buffer = none := by
      cases hb : s.buffer with
      | none => rfl
      | some b => exact absurd hr (h.buf b hb).1
    simp only [pend, hr, hb, hex, optVal, optErr, List.nil_append, List.cons.injEq] at hx
    simp [St.await, St.ready, hex, St.resumeAw, St.give, ← hx.1]
  | none =>
    cases hr : s.result with
    | none =>
      have := h.pend_nil.2 ⟨hr, hex⟩
      rw [this] at hx
      simp at hx
    | some y =>
      have hpn : s.pushed = none := by
        have := h.eagerR; have := h.eagerP; have := h.eagerQ; have := h.eagerD; have := h.stuck
        cases hph : s.phase <;> grind
      simp only [pend, hr, optVal, List.cons_append, List.nil_append, List.cons.injEq] at hx
      simp [St.await, St.ready, hex, hr, St.resumeAw, hpn, St.takeResult, St.give, ← hx.1]

/-- **C30**: an await that has not ended waits for a body that has not ended; everything
the body gave was delivered, except that a lazy generator without pushed values may hold
one value back until its body gives another or ends. -/
theorem C30_waiting_partial (v : Bool) (es : List Ev) (ht : TidyRun {} { void := v } es) {a : Nat} {w : Aw}
    (hw : (St.run v es).aw a = some w) (hg : w.got = none) (hk : a ∉ (St.run v es).killed) :
    (spec es).ended = false ∧ (spec es).dropped = false ∧ (St.run v es).awaited = some a ∧
    ((St.run v es).lazy = false ∨ (St.run v es).void = false → (spec es).outs = delivered (St.run v es)) := by
  have h := Inv.after ht
  have ha := h.pending a w hw hg hk
  have hrv : (St.run v es).recv = true := by
    cases hx : (St.run v es).recv with
    | true => rfl
    | false => have := (h.unrecv hx).2; rw [ha] at this; simp at this
  have hdp : (spec es).dropped = false := by rw [h.dropped, hrv]; rfl
  have hdn : (St.run v es).done = false := by
    cases hx : (St.run v es).done with
    | false => rfl
    | true => have := h.doneA hx; rw [ha] at this; simp at this
  refine ⟨by rw [← h.ended hrv, hdn], hdp, ha, fun hl => ?_⟩
  have hr : (St.run v es).result = none := by
    cases hx : (St.run v es).result with
    | none => rfl
    | some y =>
      have := h.waitsN (by simp [ha]) (by simp [hx])
      rcases hl with hl | hl <;> simp [hl] at this
  have he : (St.run v es).exc = none := by
    cases hx : (St.run v es).exc with
    | none => rfl
    | some y => have := (h.exc y hx).2; rw [hdn] at this; simp at this
  rw [h.del hdp, h.pend_nil.2 ⟨hr, he⟩, List.append_nil]

/-- A lazy generator without pushed values: started by the first await, interrupted,
awaited again while the body runs, which passes its first yield; then it is awaited twice
more, returns and is exhausted. -/
def lazySched : List Ev :=
  [.initial, .await 0 0, .yield 1, .await 1 1, .interrupt 1, .await 2 2, .yield 2, .yield 3, .await 3 3, .await 4 4,
   .ret 5, .await 5 5]

example : TidyRun {} { void := true } lazySched := by decide

example : (St.run true lazySched).log =
    [(5, .err .returnedVoid), (4, .val 5), (3, .val 3), (2, .val 2), (1, .err .detached), (0, .val 1)] := by decide

/-- An eager generator with pushed values. -/
def eagerSched : List Ev :=
  [.yield 1, .await 0 10, .await 1 11, .await 2 12, .run, .yield 2, .run, .yield 3, .await 3 13, .run, .throw 9,
   .await 4 14, .await 5 15]

example : TidyRun {} {} eagerSched := by decide

example : (St.run false eagerSched).log = [(5, .err .returnedVoid), (4, .err (.user 9)), (3, .val 3), (1, .val 2),
    (2, .err .alreadyAwaited), (0, .val 1)] := by decide

/-- The hypotheses of `C30_next_partial` and `C30_waiting_partial`. -/
example : (spec (eagerSched.take 8)).outs = delivered (St.run false (eagerSched.take 8)) ++ .val 3 :: [] ∧
    (spec (eagerSched.take 8)).dropped = false ∧
    ((St.run false (eagerSched.take 5)).aw 1).map (·.got) = some none := by decide

/-- **C30** does not hold in full. `get` of an eager generator, and the next await: the
body is resumed without a pushed value. -/
theorem C30_get_violated (v : Bool) : ¬C30 v := by
  intro h
  have := (h [.yield 1, .get 0, .await 1 10] (by cases v <;> decide)).1
  revert this
  cases v <;> decide

/-- Without `get`: after an interrupted await of a lazy generator without pushed values
the exception of the body overtakes the value before it. -/
theorem C30_overtaken_violated : ∃ es, Legal { void := true } es ∧ (St.run true es).ub = false ∧
    (spec es).outs = [.val 5, .err (.user 9)] ∧ delivered (St.run true es) = [.err (.user 9)] ∧
    es = [.initial, .await 0 0, .interrupt 0, .await 1 0, .yield 5, .throw 9] :=
  ⟨_, by decide, by decide, by decide, by decide, rfl⟩

/-- The same generator holds back a value though it is awaited. -/
theorem C30_late_violated : ∃ es, TidyRun {} { void := true } es ∧ (spec es).outs = [.val 5] ∧
    delivered (St.run true es) = [] ∧ (St.run true es).awaited = some 1 ∧
    es = [.initial, .await 0 0, .interrupt 0, .await 1 0, .yield 5] :=
  ⟨_, by decide, by decide, by decide, by decide, rfl⟩

/-- The assertion in `await_resume` that nothing is pushed fails after interrupts, with
pushed values and without. -/
theorem C30_assert_violated :
    (∃ es, Legal {} es ∧ (St.run false es).ub = true ∧
      es = [.initial, .await 0 1, .interrupt 0, .await 1 2, .interrupt 1, .yield 7, .await 2 3]) ∧
    ∃ es, Legal { void := true } es ∧ (St.run true es).ub = true ∧
      es = [.initial, .await 0 0, .interrupt 0, .await 1 0, .yield 1, .interrupt 1, .await 2 0, .yield 2, .yield 3,
        .await 3 0, .await 4 0] :=
  ⟨⟨_, by decide, by decide, rfl⟩, _, by decide, by decide, rfl⟩

/-- Interrupting an await that has ended resumes another one, which fails as if the
generator was exhausted. -/
theorem C30_stale_violated : ∃ es, Legal {} es ∧ (spec es).ended = false ∧
    (St.run false es).log = [(1, .err .returnedVoid), (0, .val 1)] ∧
    es = [.yield 1, .await 0 10, .await 1 11, .interrupt 0] :=
  ⟨_, by decide, by decide, by decide, rfl⟩

/-! ## C31 -/

/-- **C31** in full: the value pushed with the k-th await is the result of the k-th
suspension point of the body. -/
def C31 : Prop := ∀ es, Legal {} es → (St.run false es).ub = false ∧
  ∀ k, k < (St.run false es).received.length → (St.run false es).received.reverse[k]? = (spec es).pushes[k]?

/-- **C31** for histories in which no await is made while another one is going on, none is
interrupted and `get` is not used: the k-th suspension point gives what was pushed with
the k-th await; while the body has not ended every suspension point but the one it is at
has given a value, and no pushed value is lost: one that was not taken yet is the last or
the one before. Also for `Push = void`, where the number tells the await. -/
theorem C31_pairs_partial (v : Bool) (es : List Ev) (ht : TidyRun {} { void := v } es) (hp : PlainRun { void := v } es) :
    (St.run v es).ub = false ∧
    (∀ k, k < (St.run v es).received.length → (St.run v es).received.reverse[k]? = (spec es).pushes[k]?) ∧
    ((spec es).dropped = false → (spec es).ended = false →
      (St.run v es).received.length ≤ (spec es).points ∧ (spec es).points ≤ (St.run v es).received.length + 1 ∧
      (spec es).pushes.length ≤ (St.run v es).received.length + 2) := by
  have h := Inv.afterPlain ht hp
  refine ⟨h.ub, ?_, ?_⟩
  · intro k hk
    obtain ⟨t, ht⟩ := h.eqPre rfl
    rw [← ht, List.getElem?_append_left (by simpa using hk)]
  · intro h1 h2
    have hpt := h.points (h.recv h1) h2
    have hq := h.eqs rfl (h.recv h1) h2
    refine ⟨by split at hpt <;> omega, by split at hpt <;> omega, ?_⟩
    rw [← hq]
    have h1 : (St.run v es).pushed.toList.length ≤ 1 := by cases (St.run v es).pushed <;> simp
    have h2 : (owed (St.run v es)).length ≤ 1 := by
      unfold owed
      cases (St.run v es).awaited with
      | none => simp [owedBy]
      | some a =>
        simp only [owedBy]
        cases (St.run v es).aw a with
        | none => simp [tp]
        | some w => simp only [tp]; split <;> simp
    simp only [List.length_append, List.length_reverse]
    omega

/-- **C31** for all uses listed at `Tidy`: every suspension point gives a value that was
pushed, each one at most once, in the order in which they were pushed. -/
theorem C31_once_partial (v : Bool) (es : List Ev) (ht : TidyRun {} { void := v } es) :
    (St.run v es).ub = false ∧ (St.run v es).received.reverse.Sublist (spec es).pushes := by
  have h := Inv.after ht
  refine ⟨h.ub, List.Sublist.trans ?_ h.sub⟩
  rw [List.append_assoc]
  exact List.sublist_append_left _ _

/-- A lazy generator with pushed values, and an eager one. -/
def pushSched : List Ev :=
  [.initial, .await 0 10, .yield 1, .await 1 11, .yield 2, .await 2 12, .ret 3, .await 3 13]

def pushSched' : List Ev :=
  [.yield 1, .await 0 10, .run, .yield 2, .await 1 11, .await 2 12, .run, .yield 3, .run]

example : TidyRun {} {} pushSched ∧ PlainRun {} pushSched ∧ TidyRun {} {} pushSched' ∧ PlainRun {} pushSched' := by decide

example : (St.run false pushSched).received = [12, 11, 10] ∧ (St.run false pushSched').received = [12, 11, 10] := by decide

/-- **C31** does not hold in full: the value pushed by an interrupted await of an eager
generator is lost, and the next one takes its place. -/
theorem C31_violated : ¬C31 := by
  intro h
  have := (h [.await 0 10, .interrupt 0, .yield 1, .await 1 11, .run] (by decide)).2 0 (by decide)
  revert this
  decide

/-- For a lazy generator the place shifts the other way: the value pushed by the
interrupted await is taken, and the one pushed with the next await is the result of the
yield whose value that await gives. -/
theorem C31_shifted_violated : ∃ es, TidyRun {} {} es ∧
    (St.run false es).log = [(1, .val 1), (0, .err .detached)] ∧
    (St.run false (es ++ [.await 2 12])).received = [11, 10] ∧
    es = [.initial, .await 0 10, .interrupt 0, .await 1 11, .yield 1] :=
  ⟨_, by decide, by decide, by decide, rfl⟩

/-! ## C32 -/

/-- **C32** in full: a generator is true exactly if its body has not ended or it gave
something that was not delivered, and an await ends with an error about the generator
only if neither holds. -/
def C32 (v : Bool) : Prop := ∀ es, Legal { void := v } es → (spec es).dropped = false →
  ((St.run v es).toBool = true ↔ (spec es).ended = false ∨ (spec es).outs ≠ delivered (St.run v es)) ∧
  ∀ a, (a, .err .returnedVoid) ∈ (St.run v es).log →
    (spec es).ended = true ∧ (spec es).outs = delivered (St.run v es)

/-- **C32** for the uses listed at `Tidy`: when a generator is true. -/
theorem C32_true_partial (v : Bool) (es : List Ev) (ht : TidyRun {} { void := v } es) (hd : (spec es).dropped = false) :
    (St.run v es).toBool = true ↔ (spec es).ended = false ∨ (spec es).outs ≠ delivered (St.run v es) := by
  have h := Inv.after ht
  rw [h.del hd, ← h.ended (h.recv hd)]
  have := h.pend_nil
  have hl : delivered (St.run v es) ++ pend (St.run v es) = delivered (St.run v es) ↔ pend (St.run v es) = [] := by simp
  simp only [St.toBool, Bool.or_eq_true, Bool.not_eq_eq_eq_not, Bool.not_true, ne_eq, hl, this,
    Classical.not_and_iff_not_or_not, or_assoc, Option.isSome_iff_ne_none]

/-- **C32**: an await of an exhausted generator fails at once, in any state. -/
theorem C32_exhausted {s : St} {a u : Nat} (hf : s.toBool = false) (hu : s.ub = false) (hc : s.can (.await a u) = true) :
    (s.step (.await a u)).log = (a, .err .returnedVoid) :: s.log ∧ (s.step (.await a u)).ub = false ∧
    (s.step (.await a u)).toBool = false := by
  simp only [St.toBool, Bool.or_eq_false_iff, Bool.not_eq_eq_eq_not, Bool.not_false, Option.isSome_eq_false_iff,
    Option.isNone_iff_eq_none] at hf
  unfold St.step
  rw [if_neg (by simp [hu, hc])]
  simp [St.await, St.ready, hf, St.resumeAw, St.give, hu, St.toBool]

/-- **C32**: an await fails in this way only if the generator is exhausted, and then for
ever. -/
theorem C32_only_partial (v : Bool) (es : List Ev) (ht : TidyRun {} { void := v } es) (hd : (spec es).dropped = false)
    {a : Nat} (ha : (a, .err .returnedVoid) ∈ (St.run v es).log) :
    (spec es).ended = true ∧ (spec es).outs = delivered (St.run v es) := by
  have h := Inv.after ht
  obtain ⟨h1, h2, h3⟩ := h.rv a ha
  rw [h.del hd, h.pend_nil.2 ⟨h2, h3⟩, List.append_nil]
  exact ⟨by rw [← h.ended (h.recv hd), h1], rfl⟩

/-- The hypotheses of `C32_exhausted` and `C32_only_partial`. -/
example : (St.run false eagerSched).toBool = false ∧ (St.run false eagerSched).can (.await 6 0) = true ∧
    (St.run false eagerSched).ub = false ∧ (5, .err .returnedVoid) ∈ (St.run false eagerSched).log ∧
    (spec eagerSched).dropped = false := by decide

/-- **C32** does not hold in full: `get` rethrows the exception of the body without taking
it. The generator stays true, however often that is done. -/
theorem C32_violated (v : Bool) : ¬C32 v := by
  intro h
  have := (h [.throw 1, .get 0] (by cases v <;> decide) (by decide)).1
  revert this
  cases v <;> decide

/-- `co_await initial` while the generator is awaited: that await fails as if the generator was
exhausted. -/
theorem C32_initial_violated : ∃ es, Legal {} es ∧ (spec es).ended = false ∧
    (St.run false es).log = [(0, .err .returnedVoid)] ∧ es = [.await 0 10, .initial] :=
  ⟨_, by decide, by decide, by decide, rfl⟩

/-! ## C60 -/

/-- **C60** in full: once the generator object is gone nothing is delivered to the body or
by it, and its frame is destroyed at its next suspension point or end. -/
def C60 : Prop := ∀ (s : St) (e : Ev), s.recv = false → s.ub = false → s.can e = true →
  (s.step e).received = s.received ∧ (s.step e).log = s.log ∧ (s.step e).ub = false ∧ (s.step e).phase = .gone

/-- **C60**: destroying the generator destroys a body suspended at a yield at once, and a
waiting coroutine. In any state. -/
theorem C60_drop {s : St} (hu : s.ub = false) (hr : s.recv = true) :
    (s.step .drop).recv = false ∧ (s.step .drop).phase = (if s.phase = .parked then .gone else s.phase) ∧
    (s.step .drop).log = s.log ∧ (s.step .drop).ub = false ∧
    (∀ a, s.awaited = some a → a ∈ (s.step .drop).killed) := by
  unfold St.step
  rw [if_neg (by simp [hu, St.can, hr])]
  refine ⟨rfl, rfl, rfl, hu, fun a ha => ?_⟩
  simp [St.drop, St.dead, ha]

/-- **C60** but for a body that ends by an exception: in any state. -/
theorem C60_after_partial {s : St} {e : Ev} (hr : s.recv = false) (hu : s.ub = false) (hc : s.can e = true)
    (he : ∀ x, e ≠ .throw x) :
    (s.step e).received = s.received ∧ (s.step e).log = s.log ∧ (s.step e).ub = false ∧ (s.step e).phase = .gone := by
  unfold St.step
  rw [if_neg (by simp [hu, hc])]
  cases e <;> simp only [St.can, hr, Bool.false_and, Bool.false_eq_true] at hc <;>
    simp_all [St.suspend, St.kill]

/-- **C60**, exactly: what the property asks of the next event of a body without a generator holds
of all but an exception. -/
theorem C60_exact {s : St} {e : Ev} (hr : s.recv = false) (hu : s.ub = false) (hc : s.can e = true) :
    ((s.step e).received = s.received ∧ (s.step e).log = s.log ∧ (s.step e).ub = false ∧
      (s.step e).phase = .gone) ↔ ∀ x, e ≠ .throw x := by
  refine ⟨fun h x he => ?_, C60_after_partial hr hu hc⟩
  subst he
  have h4 := h.2.2.2
  unfold St.step at h4
  rw [if_neg (by simp [hu, hc])] at h4
  simp_all [St.can, St.kill]

/-- **C60** for whole histories: after the object is gone the results of awaits and of
suspension points stay as they are. -/
theorem C60_frozen (es : List Ev) : ∀ {s : St}, s.recv = false →
    (s.steps es).received = s.received ∧ (s.steps es).log = s.log ∧ (s.steps es).ub = s.ub := by
  induction es with
  | nil => intro s _; exact ⟨rfl, rfl, rfl⟩
  | cons e es ih =>
    intro s hr
    have key : (s.step e).recv = false ∧ (s.step e).received = s.received ∧ (s.step e).log = s.log ∧
        (s.step e).ub = s.ub := by
      unfold St.step
      split
      · exact ⟨hr, rfl, rfl, rfl⟩
      · rename_i hc
        simp only [Bool.or_eq_true, Bool.not_eq_eq_eq_not, Bool.not_true, not_or, Bool.not_eq_false] at hc
        have hc := hc.2
        cases e <;> simp only [St.can, hr, Bool.false_and, Bool.false_eq_true] at hc <;>
          simp_all [St.suspend, St.kill]
    obtain ⟨h1, h2, h3, h4⟩ := key
    obtain ⟨i1, i2, i3⟩ := ih h1
    exact ⟨i1.trans h2, i2.trans h3, i3.trans h4⟩

/-- The hypotheses: a body at a yield, one that runs, one in the posted lambda. -/
example : (St.run false [.yield 1, .drop]).phase = .gone ∧
    (St.run false [.yield 1, .await 0 1, .drop]).phase = .posted ∧
    (St.run false [.yield 1, .await 0 1, .drop, .run]).phase = .gone ∧
    (St.run false [.await 0 1, .drop]).killed = [0] ∧
    (St.run false [.await 0 1, .drop, .yield 3]).phase = .gone := by decide

/-- **C60** does not hold for a body that throws after the object is gone: the exception
leaves `resume` and the frame is not destroyed. -/
theorem C60_violated : ¬C60 := by
  intro h
  have := (h (St.run false [.drop]) (.throw 1) (by decide) (by decide) (by decide)).2.2.2
  revert this
  decide

end Cobalt.Gen
