import Verif.Chan.ExactLemmas
import Verif.Chan.LostLemmas
/-!
# C05, C08 and C09, exactly
-/
namespace Cobalt.Chan

/-- **C05 exactly**: with any number of producers and consumers, and any schedule that has not reached undefined
behaviour, a value the channel has taken over is lost just if an assertion has failed. -/
theorem C05_exact (cap : Nat) (es : List Ev) (hu : (exec cap es).ub = false) :
    (∃ w, (exec cap es).Lost w) ↔ (exec cap es).asserted = true := by
  constructor
  · rintro ⟨w, h1, h2, h3, h4⟩
    rcases exec_inv cap es with h | ⟨_, t⟩
    · rw [hu] at h; exact absurd h (by simp)
    · refine Classical.byContradiction fun ha => ?_
      rcases t.keep (by simpa using ha) w h1 with h | h | h
      · exact h2 h
      · exact h3 h
      · exact h4 h
  · intro ha
    rcases exec_lo cap es with h | h
    · rw [hu] at h; exact absurd h (by simp)
    · exact h ha

/-- The schedule of `C05_value_lost`. -/
example :
    let es := [Ev.mkW, .awaitW 0 true false [], .mkW, .awaitW 1 true false [], .mkW, .awaitW 2 true false [],
      .mkR, .awaitR 0 true false [], .mkR, .awaitR 1 true false [], .mkW, .awaitW 3 true false [], .run 0, .run 0]
    (exec 1 es).ub = false ∧ (exec 1 es).asserted = true := by decide

/-- **C05 exactly**: and this happens just when a write goes on (after it was woken, or because the channel was closed
between its creation and its `co_await`) whose value was not given to a reader, and finds the buffer full. -/
theorem C05_when (cap : Nat) (es : List Ev) (hu : (exec cap es).ub = false) (e : Ev) :
    let s := exec cap es
    (s.step e).asserted = true ↔ s.asserted = true ∨
      (∃ k i, e = .run k ∧ s.posted[k]? = some (.w i) ∧ s.Overfull i) ∨
      (∃ i conn txn hits, e = .awaitW i conn txn hits ∧ (s.W i).status = .fresh ∧ s.closed = true ∧ s.Overfull i) := by
  dsimp only
  obtain ⟨h, t⟩ := reach hu
  generalize exec cap es = s at *
  have hx := h.excl
  have plain : ∀ s' : St, s.step e = s' → s'.asserted = s.asserted → (∀ k, e ≠ .run k) →
      (∀ i conn txn hits, e ≠ .awaitW i conn txn hits) →
      ((s.step e).asserted = true ↔ s.asserted = true ∨
      (∃ k i, e = .run k ∧ s.posted[k]? = some (.w i) ∧ s.Overfull i) ∨
      (∃ i conn txn hits, e = .awaitW i conn txn hits ∧ (s.W i).status = .fresh ∧ s.closed = true ∧ s.Overfull i)) := by
    intro s' hs ha h1 h2
    rw [hs, ha]
    constructor
    · exact Or.inl
    · rintro (h | ⟨k, i, h, _⟩ | ⟨i, c, x, l, h, _⟩)
      · exact h
      · exact absurd h (h1 k)
      · exact absurd h (h2 i c x l)
  cases e with
  | mkR => exact plain _ rfl (by simp [St.step, hu]) (by simp) (by simp)
  | mkW => exact plain _ rfl (by simp [St.step, hu]) (by simp) (by simp)
  | cancelR i => exact plain _ rfl (by simp only [St.step, hu, St.cancelR]; grind) (by simp) (by simp)
  | cancelW i => exact plain _ rfl (by simp only [St.step, hu, St.cancelW]; grind) (by simp) (by simp)
  | dropR i => exact plain _ rfl (by simp only [St.step, hu, St.dropR]; grind) (by simp) (by simp)
  | dropW i => exact plain _ rfl (by simp only [St.step, hu, St.dropW]; grind) (by simp) (by simp)
  | close => exact plain _ rfl (by simp [St.step, hu, St.close]) (by simp) (by simp)
  | intR i => exact plain _ rfl (by simpa [St.step, hu, St.int] using int_ass s (.r i)) (by simp) (by simp)
  | intW i => exact plain _ rfl (by simpa [St.step, hu, St.int] using int_ass s (.w i)) (by simp) (by simp)
  | awaitR i conn txn hits =>
    refine plain _ rfl ?_ (by simp) (by simp)
    have e1 : s.step (.awaitR i conn txn hits) = s.awaitR i conn txn hits := by simp [St.step, hu]
    rw [e1, awaitR_eq]
    split
    · rfl
    · rename_i hf
      simp only [ne_eq, Decidable.not_not] at hf
      have hl := h.logged (s.log ++ [Obs.startR i])
      dsimp only
      split
      · rw [resumeR_ass _ (by exact hx)]
      · rename_i hn
        simp only [St.readReady, not_or, Bool.not_eq_true, Bool.or_eq_false_iff] at hn
        split
        · rfl
        · rename_i w rest hq
          split
          · rename_i hw
            have hw1 := hl.handR txn hf hn.2 hq hw
            generalize (if (s.W w).txn = true then hits else []) = l
            have hz := hw1.hits l
            have ha := hits_ass l (({ s with log := s.log ++ [Obs.startR i] } : St).takeFrom i w txn |>.handR i w)
            have hd := ((hits_frame l (({ s with log := s.log ++ [Obs.startR i] } : St).takeFrom i w txn
              |>.handR i w)).2.2.2.2.2.2.2 w (by simp [St.handR, St.takeFrom, upd_apply])).1
            generalize List.foldl St.int _ l = z at *
            rw [Bool.eq_iff_iff, resumeW_ass w hz.excl, ha]
            simp [St.Overfull, hd, St.handR, St.takeFrom]
          · rfl
  | awaitW i conn txn hits =>
    have e1 : s.step (.awaitW i conn txn hits) = s.awaitW i conn txn hits := by simp [St.step, hu]
    rw [e1, awaitW_eq]
    split
    · rename_i hf
      constructor
      · exact Or.inl
      · rintro (h | ⟨k, i, h, _⟩ | ⟨j, c, x, l, h, h', _⟩)
        · exact h
        · cases h
        · cases h; exact absurd h' hf
    · rename_i hf
      simp only [ne_eq, Decidable.not_not] at hf
      have hl := h.logged (s.log ++ [Obs.startW i])
      have fin : s.closed = false → ∀ b : Bool, b = s.asserted → (b = true ↔ s.asserted = true ∨
          (∃ k j, Ev.awaitW i conn txn hits = .run k ∧ s.posted[k]? = some (.w j) ∧ s.Overfull j) ∨
          (∃ j conn' txn' hits', Ev.awaitW i conn txn hits = .awaitW j conn' txn' hits' ∧ (s.W j).status = .fresh ∧
            s.closed = true ∧ s.Overfull j)) := by
        rintro hc b rfl
        simp [hc]
      dsimp only
      split
      · rename_i hr
        rw [resumeW_ass _ (by exact hx)]
        constructor
        · rintro (h1 | h1)
          · exact Or.inl h1
          · refine Or.inr (Or.inr ⟨i, conn, txn, hits, rfl, hf, ?_, h1⟩)
            rcases hr with hr | hr
            · have hfull : s.buf.length = s.cap := h1.2.2.2
              simpa [St.writeReady, hfull] using hr
            · have hcan : (s.W i).cancelled = false := h1.2.1
              rw [show (({ s with log := s.log ++ [Obs.startW i] } : St).W i) = s.W i from rfl, hcan] at hr
              exact absurd hr (by simp)
        · rintro (h1 | ⟨k, j, h1, _⟩ | ⟨j, c, x, l, h1, _, _, h2⟩)
          · exact Or.inl h1
          · cases h1
          · cases h1; exact Or.inr h2
      · rename_i hn
        simp only [St.writeReady, not_or, Bool.not_eq_true, Bool.or_eq_false_iff] at hn
        have hk : (s.W i).closedF = false := by
          have := h.wclosed i
          have := hn.1.2
          grind
        refine fin hn.1.2 _ ?_
        split
        · rfl
        · rename_i w rest hq
          split
          · rename_i hw
            have hw1 := hl.handW txn hf hn.2 hk hq hw
            generalize (if (s.R w).txn = true then hits else []) = l
            have hz := hw1.hits l
            rw [resumeR_ass w hz.excl, hits_ass l]
            rfl
          · rfl
  | run k =>
    have e1 : s.step (.run k) = s.run k := by simp [St.step, hu]
    rw [e1]
    unfold St.run
    split
    · rename_i hk
      simp [hk]
    · rename_i i hk
      rw [resumeR_ass _ (by exact hx)]
      simp [hk]
    · rename_i i hk
      rw [resumeW_ass _ (by exact hx)]
      simp [hk, St.Overfull]

/-- The last step of that schedule: write 1 was woken when there was room. -/
example :
    let es := [Ev.mkW, .awaitW 0 true false [], .mkW, .awaitW 1 true false [], .mkW, .awaitW 2 true false [],
      .mkR, .awaitR 0 true false [], .mkR, .awaitR 1 true false [], .mkW, .awaitW 3 true false []]
    (exec 1 es).ub = false ∧ (exec 1 es).asserted = false ∧ (exec 1 es).posted[0]? = some (.w 1) ∧
    (exec 1 es).Overfull 1 := by
  refine ⟨by decide, by decide, by decide, ?_⟩
  unfold St.Overfull
  decide

/-- **C05 exactly**, undefined behaviour: running a posted read leads to undefined behaviour just if it was not
cancelled and either finds nothing (somebody else took the value that it was woken for), or takes a value, makes room,
and the first write in the queue is one that was interrupted. -/
theorem C05_woken_read_exact (cap : Nat) (es : List Ev) (hu : (exec cap es).ub = false) (k i : Nat)
    (hk : (exec cap es).posted[k]? = some (.r i)) :
    let s := exec cap es
    (s.step (.run k)).ub = true ↔ (s.R i).cancelled = false ∧
      ((s.buf = [] ∧ (s.R i).direct = none ∧ s.closed = false) ∨
       (StaleW s ∧ if (s.R i).direct = none then s.buf ≠ [] else s.buf.length ≠ cap)) := by
  dsimp only
  obtain ⟨h, t⟩ := reach hu
  have hcap := exec_cap cap es
  rw [staleW_iff h]
  generalize exec cap es = s at *
  have hlen := h.len
  have e : s.step (.run k) = s.run k := by simp [St.step, hu]
  rw [e]
  simp only [St.run, hk]
  have hcq := h.closedQ
  unfold St.resumeR
  dsimp only
  by_cases hc : (s.closed && decide (s.buf = []) && (s.R i).direct.isNone) = true
  · rw [if_pos hc]
    simp only [Bool.and_eq_true, decide_eq_true_eq, Option.isNone_iff_eq_none] at hc
    simp [St.endR, hu, hc, hcq hc.1.1]
  · rw [if_neg hc]
    by_cases hx : (s.R i).cancelled = true
    · rw [if_pos hx]; simp [St.endR, hu, hx]
    · rw [if_neg hx]
      have hx : (s.R i).cancelled = false := by simpa using hx
      have aux : ∀ x : St, x.ub = false → x.wq = s.wq → x.W = s.W → x.closed = s.closed → x.cap = s.cap →
          (x.wakeWriter.ub = true ↔ (∃ j, s.wq.head? = some j ∧ (s.W j).waiting = false) ∧ x.buf.length ≠ s.cap) := by
        intro x h1 h2 h3 h4 h5
        rw [wakeWriter_ub]
        simp only [h1, h2, h3, St.writeReady, h4, h5, Bool.false_or, decide_eq_true_eq, Bool.or_eq_true]
        constructor
        · rintro ⟨w, a, b, c⟩
          refine ⟨⟨w, a, b⟩, ?_⟩
          rcases c with c | c
          · exact c
          · rw [(hcq c).2] at a; exact absurd a (by simp)
        · rintro ⟨⟨w, a, b⟩, c⟩
          exact ⟨w, a, b, Or.inl c⟩
      split
      · rename_i hb hd
        simp only [Bool.and_eq_true, decide_eq_true_eq, Option.isNone_iff_eq_none, hb, hd, and_true] at hc
        simp [hb, hd, hx, hc]
      · rename_i hb hd
        rw [aux _ (by exact hu) (by rfl) (by rfl) (by rfl) (by rfl)]
        simp [St.endR, hb, hd, hx, hcap]
      · rename_i b bs hb hd
        rw [aux _ (by exact hu) (by rfl) (by rfl) (by rfl) (by rfl)]
        have : bs.length ≠ s.cap := by rw [hb] at hlen; simp at hlen; omega
        simp [hb, hd, hx, this]
      · rename_i b bs d hb hd
        rw [aux _ (by exact hu) (by rfl) (by rfl) (by rfl) (by rfl)]
        have h1 : (pushBack s.cap bs d).length = s.buf.length := by
          rw [hb] at hlen ⊢
          simp only [List.length_cons] at hlen ⊢
          rw [pushBack_lt d (by omega)]
          simp
        dsimp only
        rw [h1]
        simp [hb, hd, hx, hcap]

/-- … and a posted write just if it was not cancelled, the first read in the queue was interrupted, and there is a value
for it. -/
theorem C05_woken_write_exact (cap : Nat) (es : List Ev) (hu : (exec cap es).ub = false) (k i : Nat)
    (hk : (exec cap es).posted[k]? = some (.w i)) :
    let s := exec cap es
    (s.step (.run k)).ub = true ↔ (s.W i).cancelled = false ∧ StaleR s ∧
      if (s.W i).direct = true then s.buf ≠ [] else cap ≠ 0 := by
  dsimp only
  obtain ⟨h, t⟩ := reach hu
  have hcap := exec_cap cap es
  rw [staleR_iff h]
  generalize exec cap es = s at *
  have hlen := h.len
  have e : s.step (.run k) = s.run k := by simp [St.step, hu]
  rw [e]
  simp only [St.run, hk]
  have hcq := h.closedQ
  unfold St.resumeW
  dsimp only
  split
  · rename_i hc
    have := hcq (h.wclosed i hc)
    simp [St.endW, hu, this]
  · split
    · rename_i hx
      simp [St.endW, hu, hx]
    · rename_i hx
      have hx : (s.W i).cancelled = false := by simpa using hx
      have aux : ∀ x : St, x.ub = false → x.rq = s.rq → x.R = s.R → x.closed = s.closed →
          (x.wakeReader.ub = true ↔ (∃ j, s.rq.head? = some j ∧ (s.R j).waiting = false) ∧ x.buf ≠ []) := by
        intro x h1 h2 h3 h4
        rw [wakeReader_ub]
        simp only [h1, h2, h3, St.readReady, h4, Bool.false_or, decide_eq_true_eq, Bool.or_eq_true]
        constructor
        · rintro ⟨w, a, b, c⟩
          refine ⟨⟨w, a, b⟩, ?_⟩
          rcases c with c | c
          · exact c
          · rw [(hcq c).1] at a; exact absurd a (by simp)
        · rintro ⟨⟨w, a, b⟩, c⟩
          exact ⟨w, a, b, Or.inl c⟩
      split
      · rename_i hd
        rw [aux _ (by exact hu) (by rfl) (by rfl) (by rfl)]
        simp [St.endW, hd, hx]
      · rename_i hd
        rw [aux _ (by exact hu) (by rfl) (by rfl) (by rfl)]
        have h1 : pushBack s.cap s.buf i ≠ [] ↔ cap ≠ 0 := by
          rw [hcap] at hlen ⊢
          unfold pushBack
          by_cases h0 : cap = 0
          · subst h0
            have : s.buf = [] := List.length_eq_zero_iff.mp (by omega)
            simp [this]
          · simp only [h0, if_false]
            split <;> simp [h0]
        dsimp only
        rw [h1]
        simp [hd, hx]

/-- **C05 exactly**: nothing else does. (For operations that are awaited see `C09_write_exact` and `C09_read_exact`.) -/
theorem C05_ub_only (cap : Nat) (es : List Ev) (hu : (exec cap es).ub = false) (e : Ev)
    (h1 : ∀ k, e ≠ .run k) (h2 : ∀ i c x l, e ≠ .awaitR i c x l) (h3 : ∀ i c x l, e ≠ .awaitW i c x l) :
    ((exec cap es).step e).ub = false := by
  generalize exec cap es = s at *
  cases e with
  | mkR => simp [St.step, hu]
  | mkW => simp [St.step, hu]
  | cancelR i => simp only [St.step, hu, St.cancelR]; grind
  | cancelW i => simp only [St.step, hu, St.cancelW]; grind
  | dropR i => simp only [St.step, hu, St.dropR]; grind
  | dropW i => simp only [St.step, hu, St.dropW]; grind
  | close => simp [St.step, hu, St.close]
  | intR i => simpa [St.step, hu, St.int] using (int_frame s (.r i)).1
  | intW i => simpa [St.step, hu, St.int] using (int_frame s (.w i)).1
  | awaitR i c x l => exact absurd rfl (h2 i c x l)
  | awaitW i c x l => exact absurd rfl (h3 i c x l)
  | run k => exact absurd rfl (h1 k)

/-- A woken read that finds nothing. -/
example :
    let es := [Ev.mkR, .awaitR 0 true false [], .mkW, .awaitW 0 true false [], .mkR, .awaitR 1 true false []]
    (exec 1 es).ub = false ∧ (exec 1 es).posted[0]? = some (.r 0) ∧ ((exec 1 es).R 0).cancelled = false ∧
    (exec 1 es).buf = [] ∧ ((exec 1 es).R 0).direct = none ∧ (exec 1 es).closed = false := by decide

/-- **C09 is violated always**: an operation that waits in the queue and is interrupted ends, and is still in the
queue. -/
theorem C09_stays (cap : Nat) (es : List Ev) (hu : (exec cap es).ub = false) (i : Nat) :
    (i ∈ (exec cap es).rq → ((exec cap es).R i).status = .susp →
      i ∈ ((exec cap es).step (.intR i)).rq ∧ (((exec cap es).step (.intR i)).R i).status = .done) ∧
    (i ∈ (exec cap es).wq → ((exec cap es).W i).status = .susp →
      i ∈ ((exec cap es).step (.intW i)).wq ∧ (((exec cap es).step (.intW i)).W i).status = .done) := by
  obtain ⟨h, t⟩ := reach hu
  refine ⟨fun hm hs => ?_, fun hm hs => ?_⟩
  · have hf := (int_frame (exec cap es) (.r i)).2.2.1
    have hl := h.rlink i hm
    simp only [hs, reduceCtorEq, false_and, or_false, true_and] at hl
    have : (exec cap es).step (.intR i) = (exec cap es).int (.r i) := by simp [St.step, hu, St.int]
    rw [this]
    refine ⟨by rw [hf]; exact hm, ?_⟩
    simp only [St.int, St.intR, hs, reduceCtorEq, or_self, if_false, hl.1, Option.isSome_none, Bool.false_eq_true,
      hl.2.1, if_true, St.resumeR, upd_apply]
    split <;> simp [St.endR, upd_apply]
  · have hf := (int_frame (exec cap es) (.w i)).2.2.2.1
    have hl := h.wlink i hm
    simp only [hs, reduceCtorEq, false_and, or_false, true_and] at hl
    have : (exec cap es).step (.intW i) = (exec cap es).int (.w i) := by simp [St.step, hu, St.int]
    rw [this]
    refine ⟨by rw [hf]; exact hm, ?_⟩
    simp only [St.int, St.intW, hs, reduceCtorEq, or_self, if_false, hl.1, Bool.false_eq_true,
      hl.2.2.1, if_true, St.resumeW, upd_apply]
    split <;> simp [St.endW, upd_apply]

example : 0 ∈ (exec 0 [.mkR, .awaitR 0 true true []]).rq ∧
    ((exec 0 [.mkR, .awaitR 0 true true []]).R 0).status = .susp := by decide

/-- **C09 exactly**, writes: a write that is awaited leads to undefined behaviour if and only if the first read
in the queue is one that was interrupted (and the write was not itself). -/
theorem C09_write_exact (cap : Nat) (es : List Ev) (hu : (exec cap es).ub = false) (i : Nat)
    (hf : ((exec cap es).W i).status = .fresh) (conn txn : Bool) (hits : List Tok) :
    ((exec cap es).step (.awaitW i conn txn hits)).ub = true ↔
      ((exec cap es).W i).cancelled = false ∧ StaleR (exec cap es) := by
  obtain ⟨h, t⟩ := reach hu
  have hcap := exec_cap cap es
  rw [staleR_iff h]
  generalize exec cap es = s at *
  have hlen := h.len
  have e : s.step (.awaitW i conn txn hits) = s.awaitW i conn txn hits := by simp [St.step, hu]
  rw [e, awaitW_eq, if_neg (by simp [hf])]
  dsimp only
  have hwr : (St.writeReady { s with log := s.log ++ [Obs.startW i] }) = s.writeReady := rfl
  rw [hwr]
  by_cases hk : (s.W i).cancelled = true
  · rw [if_pos (Or.inr hk)]
    simp only [St.resumeW, hk, if_true]
    split <;> simp [St.endW, hu]
  · have hk : (s.W i).cancelled = false := by simpa using hk
    have hd : (s.W i).direct = false := h.wfresh i hf
    by_cases hr : s.writeReady = true
    · rw [if_pos (Or.inl hr)]
      simp only [St.resumeW, hk, hd, Bool.false_eq_true, if_false]
      split
      · rename_i hc
        have hq := (h.closedQ (h.wclosed i hc)).1
        simp [St.endW, hu, hq]
      · rw [wakeReader_ub]
        cases hq : s.rq with
        | nil => simp [St.endW, hu, hq]
        | cons j rest =>
          have hcl : s.closed = false := by
            cases hc : s.closed
            · rfl
            · have := (h.closedQ hc).1; rw [hq] at this; simp at this
          have hlt : s.buf.length ≠ s.cap := by simpa [St.writeReady, hcl] using hr
          have hne : pushBack s.cap s.buf i ≠ [] := by
            unfold pushBack
            rw [if_neg (by omega), if_neg hlt]; simp
          simp [St.endW, hu, hq, St.readReady, hne]
    · rw [if_neg (by simp [hr, hk])]
      cases hq : s.rq with
      | nil => simp [St.queueW, hu]
      | cons j rest =>
        have hwq : s.wq = [] := by
          rcases h.excl with e | e
          · rw [hq] at e; simp at e
          · exact e
        have hl := h.rlink j (by rw [hq]; simp)
        dsimp only
        split
        · rename_i hw
          rw [← hq]
          generalize hg : (if (s.R j).txn = true then hits else []) = ts
          have fr := hits_frame ts ((St.giveTo { s with log := s.log ++ [Obs.startW i] } i j txn).handW i j)
          generalize hz : ts.foldl St.int ((St.giveTo { s with log := s.log ++ [Obs.startW i] } i j txn).handW i j) = z at fr
          have hdj : (z.R j).direct = some i ∧ (z.R j).cancelled = false := by
            have := fr.2.2.2.2.2.2.1 j i (by simp [St.giveTo, St.handW, upd_apply])
            rw [this.1, this.2]
            rcases hl.2 with ⟨-, -, hx⟩ | ⟨-, hx, -⟩
            · simp [St.giveTo, St.handW, upd_apply, hx]
            · rw [hw] at hx; simp at hx
          have hzq : z.wq = [] := fr.2.2.2.1.trans hwq
          have hzu : z.ub = false := fr.1.trans hu
          have : (z.resumeR j).ub = false := by
            simp only [St.resumeR, hdj.1, hdj.2, Option.isNone_some, Bool.and_false, Bool.false_eq_true, if_false]
            split <;> simp_all [wakeWriter_ub, St.endR]
          rw [this]
          simp [hq, hw]
        · rename_i hw
          simp only [List.head?_cons, Option.some.injEq, true_iff]
          exact ⟨hk, j, rfl, by simpa using hw⟩

/-- **C09 exactly**, reads. -/
theorem C09_read_exact (cap : Nat) (es : List Ev) (hu : (exec cap es).ub = false) (i : Nat)
    (hf : ((exec cap es).R i).status = .fresh) (conn txn : Bool) (hits : List Tok) :
    ((exec cap es).step (.awaitR i conn txn hits)).ub = true ↔
      ((exec cap es).R i).cancelled = false ∧ StaleW (exec cap es) := by
  obtain ⟨h, t⟩ := reach hu
  have hcap := exec_cap cap es
  rw [staleW_iff h]
  generalize exec cap es = s at *
  have hlen := h.len
  have e : s.step (.awaitR i conn txn hits) = s.awaitR i conn txn hits := by simp [St.step, hu]
  rw [e, awaitR_eq, if_neg (by simp [hf])]
  dsimp only
  have hwr : (St.readReady { s with log := s.log ++ [Obs.startR i] }) = s.readReady := rfl
  rw [hwr]
  by_cases hk : (s.R i).cancelled = true
  · rw [if_pos (Or.inr hk)]
    simp only [St.resumeR, hk, if_true]
    split <;> simp [St.endR, hu]
  · have hk : (s.R i).cancelled = false := by simpa using hk
    have hd : (s.R i).direct = none := h.rfresh i hf
    by_cases hr : s.readReady = true
    · rw [if_pos (Or.inl hr)]
      simp only [St.resumeR, hk, hd, Bool.false_eq_true, if_false, Option.isNone_none, Bool.and_true]
      split
      · rename_i hc
        have hc : s.closed = true := by
          simp only [Bool.and_eq_true] at hc; exact hc.1
        have hq := (h.closedQ hc).2
        simp [St.endR, hu, hq]
      · rename_i hc
        cases hb : s.buf with
        | nil =>
          exfalso
          simp only [hb] at hc
          simp [St.readReady, hb] at hr
          simp [hr] at hc
        | cons b bs =>
          dsimp only
          rw [wakeWriter_ub]
          cases hq : s.wq with
          | nil => simp [St.endR, hu, hq]
          | cons j rest =>
            have hlt : bs.length ≠ s.cap := by
              rw [hb] at hlen; simp at hlen; omega
            simp [St.endR, hu, hq, St.writeReady, hlt, hk]
    · rw [if_neg (by simp [hr, hk])]
      cases hq : s.wq with
      | nil => simp [St.queueR, hu]
      | cons j rest =>
        have hwq : s.rq = [] := by
          rcases h.excl with e | e
          · exact e
          · rw [hq] at e; simp at e
        have hl := h.wlink j (by rw [hq]; simp)
        dsimp only
        split
        · rename_i hw
          rw [← hq]
          generalize hg : (if (s.W j).txn = true then hits else []) = ts
          have fr := hits_frame ts ((St.takeFrom { s with log := s.log ++ [Obs.startR i] } i j txn).handR i j)
          generalize hz : ts.foldl St.int ((St.takeFrom { s with log := s.log ++ [Obs.startR i] } i j txn).handR i j) = z at fr
          have hdj := fr.2.2.2.2.2.2.2 j (by simp [St.takeFrom, St.handR, upd_apply])
          have hzq : z.rq = [] := fr.2.2.1.trans hwq
          have hzu : z.ub = false := fr.1.trans hu
          have : (z.resumeW j).ub = false := by
            simp only [St.resumeW, hdj.1, if_true]
            split
            · simp [St.endW, hzu]
            · split
              · simp [St.endW, hzu]
              · simp [wakeReader_ub, St.endW, hzu, hzq]
          rw [this]
          simp [hq, hw]
        · rename_i hw
          simp only [List.head?_cons, Option.some.injEq, true_iff]
          exact ⟨hk, j, rfl, by simpa using hw⟩

example : ((exec 0 [.mkR, .awaitR 0 true true [], .intR 0, .mkW]).W 0).status = .fresh ∧
    (exec 0 [.mkR, .awaitR 0 true true [], .intR 0, .mkW]).ub = false := by decide

/-- **C08**, exactly: what a write reports that is awaited after `close`, whatever
happened before and after: `broken_pipe` if it was made after `close`, else
`operation_aborted` if it was interrupted in the meantime, else success. In the
last case its value is put at the end of the buffer, and the oldest value is
thrown away if there is no room (so a channel of limit 0 drops the value that the
writer believes was taken). Nothing else changes the buffer. -/
theorem C08_exact (cap : Nat) (es es' : List Ev) (hu : (exec cap es).ub = false) (ho : (exec cap es).closed = false)
    (conn txn : Bool) (hits : List Tok) (i : Nat)
    (hf : ((exec cap (es ++ .close :: es')).W i).status = .fresh) :
    let made := (exec cap es).nextW
    let s := exec cap (es ++ .close :: es')
    let s' := s.step (.awaitW i conn txn hits)
    let res := if made ≤ i then WRes.brokenPipe else if (s.W i).cancelled then .aborted else .ok
    s'.log = s.log ++ [.startW i, .doneW i res] ∧
    s'.buf = (if res = .ok then (s.buf ++ [i]).drop (s.buf.length + 1 - cap) else s.buf) ∧ s'.ub = false := by
  dsimp only
  obtain ⟨h, t⟩ := reach hu
  have e1 : exec cap (es ++ .close :: es') = ((exec cap es).step .close).steps es' := by
    rw [exec_append]; rfl
  have huc : (exec cap (es ++ [.close])).ub = false := by
    rw [exec_append]; simp [St.steps, St.step, hu, St.close]
  have hcc : (exec cap (es ++ [.close])).closed = true := by
    rw [exec_append]; simp [St.steps, St.step, hu, St.close]
  have hcl := C07_nothing_left cap (es ++ [.close]) es' huc hcc
  rw [List.append_assoc, List.singleton_append] at hcl
  obtain ⟨wc, tc⟩ := reach huc
  have ec : exec cap (es ++ [.close]) = (exec cap es).step .close := by rw [exec_append]; rfl
  rw [ec] at wc tc huc hcc
  have hsince : Since (exec cap es) (exec cap (es ++ .close :: es')) := by
    rw [e1]
    refine Since.steps es' ?_ wc tc hcc huc
    have kp := Kept.step h .close (by simp)
    exact ⟨by rw [kp.next]; exact Nat.le_refl _, kp.kept, fun j h1 h2 => by rw [kp.next] at h2; omega⟩
  obtain ⟨ws, ts⟩ := reach hcl.1
  have hcap : (exec cap (es ++ .close :: es')).cap = cap := (Rel.exec cap [] (es ++ .close :: es')).cap
  have hlt : i < (exec cap (es ++ .close :: es')).nextW := by
    refine Nat.lt_of_not_le fun hge => ?_
    rw [ws.wnew i hge] at hf
    exact absurd hf (by simp)
  have hmk : ((exec cap (es ++ .close :: es')).W i).closedF = decide ((exec cap es).nextW ≤ i) := by
    by_cases hi : (exec cap es).nextW ≤ i
    · rw [hsince.new i hi hlt hf]; simp [hi]
    · have := (hsince.old i (by omega) hf).2
      rw [this]
      have hn : ((exec cap es).W i).closedF ≠ true := fun hh => by
        have := h.wclosed i hh
        rw [ho] at this
        exact absurd this (by simp)
      simp [hi, hn]
  have hd := ws.wfresh i hf
  have hlen := ws.len
  generalize exec cap (es ++ .close :: es') = s at *
  generalize (exec cap es).nextW = made at *
  simp only [St.step, hcl.1, Bool.false_eq_true, if_false, awaitW_eq, hf, ne_eq, not_true_eq_false]
  rw [if_pos (Or.inl (by simp [St.writeReady, hcl.2.1]))]
  have hw : ∀ x : St, x.rq = [] → x.wakeReader = x := by
    intro x hx; simp [St.wakeReader, hx]
  by_cases hi : made ≤ i
  · simp [St.resumeW, hmk, hi, St.endW, hcl.1]
  · by_cases hk : (s.W i).cancelled = true
    · simp [St.resumeW, hmk, hi, hk, St.endW, hcl.1]
    · simp only [St.resumeW, hmk, hi, hk, hd, decide_false, Bool.false_eq_true, if_false, St.endW, if_true]
      generalize hx : St.mk _ _ _ _ _ _ _ _ _ _ _ _ _ = x
      rw [hw x (by rw [← hx]; exact hcl.2.2.1), ← hx]
      refine ⟨by simp, ?_, by simp⟩
      dsimp only
      rw [hcap]
      rw [hcap] at hlen
      exact pushBack_eq cap s.buf i hlen

/-- For example a write made before and awaited after `close`, on a full channel:
the value that was in it is lost. -/
example :
    let es := [Ev.mkW, .mkW, .awaitW 0 true false []]
    (exec 1 es).ub = false ∧ (exec 1 es).closed = false ∧
    ((exec 1 (es ++ .close :: [.mkR])).W 1).status = .fresh ∧ (exec 1 (es ++ .close :: [.mkR])).buf = [0] ∧
    ((exec 1 (es ++ .close :: [.mkR])).step (.awaitW 1 true false [])).buf = [1] := by decide

end Cobalt.Chan
