import Verif.Comb.Told
/-! Signals are sent only through pointers that are set, and a pointer that is null stays so. -/
namespace Cobalt.Comb

structure Mute (s t : St) : Prop where
  sig : ∀ j, t.sig j = true → s.sig j = true
  sent : ∃ l, t.sent = l ++ s.sent ∧ ∀ x ∈ l, s.sig x.1 = true

theorem Mute.refl (s : St) : Mute s s := ⟨fun _ h => h, [], rfl, by simp⟩

theorem Mute.trans {s t u : St} (h : Mute s t) (k : Mute t u) : Mute s u := by
  obtain ⟨l, h1, h2⟩ := h.sent
  obtain ⟨m, k1, k2⟩ := k.sent
  refine ⟨fun j hj => h.sig j (k.sig j hj), m ++ l, by rw [k1, h1, List.append_assoc], fun x hx => ?_⟩
  rw [List.mem_append] at hx
  exact hx.elim (fun hx => h.sig _ (k2 x hx)) (h2 x)

theorem Mute.of_eq {s t : St} (h1 : t.sig = s.sig) (h2 : t.sent = s.sent) : Mute s t :=
  ⟨fun j hj => by rw [← h1]; exact hj, [], h2, by simp⟩

theorem Mute.scanEmit (c : Cfg) (s : St) (k : Nat) (co : Cont) (ct since : Nat) :
    Mute s (s.scanEmit c k co ct since).1 := by
  unfold St.scanEmit
  cases hx : St.next c.n k (fun j => s.sig j && s.child j == .waiting) with
  | some m =>
    have hm := (next_some hx).2.2.1
    simp only [Bool.and_eq_true] at hm
    refine ⟨fun j hj => ?_, [(m, ct)], rfl, by simp [hm.1]⟩
    dsimp only at hj
    split at hj
    · exact hj
    · dsimp only at hj
      split at hj
      · simp at hj
      · exact hj
  | none =>
    refine ⟨fun j hj => ?_, [], rfl, by simp⟩
    dsimp only at hj
    split at hj
    · exact hj
    · dsimp only at hj
      split at hj
      · simp at hj
      · exact hj

theorem Mute.finish (s : St) (i : Nat) : Mute s (s.finish i) := by
  unfold St.finish; dsimp only; split <;> exact .of_eq rfl rfl

theorem Mute.endStart2 (s : St) : Mute s s.endStart2 := by
  unfold St.endStart2; split <;> exact .of_eq rfl rfl

theorem Mute.endStart (c : Cfg) (s : St) : Mute s (s.endStart c) := by
  unfold St.endStart
  split
  · dsimp only
    split
    · exact .scanEmit ..
    · exact (Mute.scanEmit ..).trans (.endStart2 _)
  · exact .endStart2 _

theorem Mute.startNext (c : Cfg) (s : St) : Mute s (s.startNext c) := by
  unfold St.startNext
  split
  · exact .endStart c s
  · exact .of_eq rfl rfl

theorem Mute.afterStart (c : Cfg) (s : St) (i : Nat) (d : Bool) : Mute s (s.afterStart c i d) := by
  unfold St.afterStart
  split
  · split
    · split
      · exact .of_eq rfl rfl
      · exact .startNext c s
    · dsimp only
      generalize (if s.child i = .finished then (if s.off i then d else true) else false) = b
      cases b
      · exact .startNext c s
      · exact .endStart c s
  · exact .startNext c s

theorem Mute.done (c : Cfg) (s : St) (co : Cont) (d : Bool) : Mute s (s.done c co d) := by
  unfold St.done
  split
  · dsimp only
    split
    · exact (Mute.finish s _).trans (.afterStart ..)
    · exact .finish s _
  · exact .refl s
  · exact .endStart2 s
  · exact .refl s

theorem Mute.contEmit (c : Cfg) (s : St) (k : Nat) (co : Cont) (ct since : Nat) (d : Bool) :
    Mute s (s.contEmit c k co ct since d) := by
  unfold St.contEmit
  dsimp only
  split
  · exact .scanEmit ..
  · exact (Mute.scanEmit ..).trans (.done ..)

theorem Mute.contIntr (c : Cfg) (s : St) (k : Nat) (co : Cont) (since : Nat) (d : Bool) :
    Mute s (s.contIntr c k co since d) := by
  have h : Mute s (s.scanIntr c k co since).1 := by unfold St.scanIntr; split <;> exact .of_eq rfl rfl
  unfold St.contIntr
  dsimp only
  split
  · exact h
  · split
    · exact h
    · exact h.trans (.contEmit ..)

theorem Mute.complete (c : Cfg) (s : St) (i : Nat) (o : Out) (b d : Bool) : Mute s (s.complete c i o b d) := by
  unfold St.complete
  dsimp only
  split
  · exact Mute.trans (.of_eq (by rfl) (by rfl)) (.done ..)
  · split
    · exact Mute.trans (.of_eq (by rfl) (by rfl)) (.done ..)
    · exact Mute.trans (.of_eq (by rfl) (by rfl)) (.contEmit ..)
  · have f1 := raceReady_frame c { s with child := upd s.child i .running } i o
    have f2 := raceSuspended_frame c { s with child := upd s.child i .running } i o
    dsimp only at f1 f2
    refine Mute.trans ?_ (.contIntr ..)
    have key : ∀ t : St, t.sig = s.sig → t.sent = s.sent → Mute s { t with sig := upd t.sig i false } := by
      intro t h1 h2
      refine ⟨fun j hj => ?_, [], h2, by simp⟩
      simp only [upd_apply] at hj
      split at hj
      · simp at hj
      · rw [← h1]; exact hj
    cases b
    · exact key _ f2.2.2.2.2.2.2.2.1 f2.2.2.2.2.2.2.2.2.2.1
    · exact key _ f1.2.2.2.2.2.2.2.1 f1.2.2.2.2.2.2.2.2.2.1

theorem Mute.thrown (c : Cfg) (s : St) (i : Nat) (e : Nat) (d : Bool) : Mute s (s.thrown c i e d) := by
  unfold St.thrown
  dsimp only
  split
  · exact Mute.trans (.of_eq (by rfl) (by rfl)) (.done ..)
  · exact Mute.trans (.of_eq (by rfl) (by rfl)) (.contEmit ..)
  · refine Mute.trans ?_ (.done ..)
    split <;> split <;> exact .of_eq rfl rfl

theorem Mute.step (c : Cfg) (s : St) (e : Ev) (he : ∀ i, e ≠ .notReady i) : Mute s (s.step c e) := by
  unfold St.step
  split
  · exact .refl s
  · cases e with
    | begin =>
      dsimp only
      split
      · exact .of_eq rfl rfl
      · exact Mute.trans (.of_eq (by rfl) (by rfl)) (.startNext ..)
    | ready i o d => exact Mute.trans (.of_eq (by rfl) (by rfl)) (.complete ..)
    | notReady i => exact absurd rfl (he i)
    | thrown i x d => exact Mute.trans (.of_eq (by rfl) (by rfl)) (.thrown ..)
    | fin i o => exact .complete ..
    | txn i =>
      dsimp only
      split
      · refine Mute.trans (t := { s with sig := upd s.sig i false, index := some i }) ?_ (.contIntr ..)
        refine ⟨fun j hj => ?_, [], rfl, by simp⟩
        simp only [upd_apply] at hj
        split at hj
        · simp at hj
        · exact hj
      · exact .refl s
    | ret d =>
      dsimp only
      split
      · exact .refl s
      · exact .refl s
      · exact Mute.trans (.of_eq (by rfl) (by rfl)) (.afterStart ..)
      · split
        · exact .of_eq rfl rfl
        · exact Mute.trans (.of_eq (by rfl) (by rfl)) (.contIntr ..)
      · split
        · exact .of_eq rfl rfl
        · exact Mute.trans (.of_eq (by rfl) (by rfl)) (.contEmit ..)
    | cancel ct => exact .contEmit ..
    | interrupt => exact .contIntr ..

/-- An awaitable whose pointer is null and that is not started later is sent nothing. -/
theorem mute_steps (c : Cfg) (j : Nat) : ∀ (es : List Ev) (s : St), s.sig j = false → .notReady j ∉ es →
    (s.steps c es).sig j = false ∧
    ∃ l, (s.steps c es).sent = l ++ s.sent ∧ ∀ x ∈ l, x.1 ≠ j
  | [], s, hs, _ => ⟨hs, [], rfl, by simp⟩
  | e :: es, s, hs, hn => by
    simp only [List.mem_cons, not_or] at hn
    have h1 : (s.step c e).sig j = false ∧ ∃ l, (s.step c e).sent = l ++ s.sent ∧ ∀ x ∈ l, x.1 ≠ j := by
      by_cases he : ∃ i, e = .notReady i
      · obtain ⟨i, rfl⟩ := he
        have hji : j ≠ i := fun h => hn.1 (by rw [h])
        unfold St.step
        split
        · exact ⟨hs, [], rfl, by simp⟩
        · exact ⟨by simpa [hji] using hs, [], rfl, by simp⟩
      · have hm := Mute.step c s e (fun i h => he ⟨i, h⟩)
        obtain ⟨l, h1, h2⟩ := hm.sent
        refine ⟨?_, l, h1, fun x hx h3 => ?_⟩
        · cases hx : (s.step c e).sig j
          · rfl
          · rw [hm.sig j hx] at hs; simp at hs
        · have := h2 x hx; rw [h3, hs] at this; simp at this
    obtain ⟨h2, l, h3, h4⟩ := h1
    obtain ⟨h5, m, h6, h7⟩ := mute_steps c j es (s.step c e) h2 hn.2
    refine ⟨h5, m ++ l, ?_, fun x hx => ?_⟩
    · rw [show St.steps c s (e :: es) = St.steps c (s.step c e) es from rfl, h6, h3, List.append_assoc]
    · rw [List.mem_append] at hx
      exact hx.elim (h7 x) (h4 x)

theorem legal_split {c : Cfg} : ∀ (xs : List Ev) {ys : List Ev} {s : St}, Legal c s (xs ++ ys) →
    Legal c s xs ∧ Legal c (s.steps c xs) ys
  | [], _, _, h => ⟨trivial, h⟩
  | _ :: xs, _, _, h => ⟨⟨h.1, (legal_split xs h.2).1⟩, (legal_split xs h.2).2⟩

theorem steps_split (c : Cfg) (xs ys : List Ev) (s : St) : s.steps c (xs ++ ys) = (s.steps c xs).steps c ys := by
  simp [St.steps, List.foldl_append]

/-- An awaitable is suspended once. -/
theorem asked_once {c : Cfg} (hc : c.Ok) {j : Nat} : ∀ (more pre : List Ev) {g nc : Bool} {s : St}, All c g nc s pre →
    Asked pre s → .notReady j ∈ pre → Legal c s more → (s.steps c more).ub = false → .notReady j ∉ more
  | [], _, _, _, _, _, _, _, _, _ => by simp
  | e :: more, pre, g, nc, s, h, ha, hj, hl, hu => by
    intro hm
    rw [List.mem_cons] at hm
    rcases hm with rfl | hm
    · have hh : s.stack.head? = some (.asking j) := by simpa [St.can] using hl.1
      have hA := (h.inv.asking j).2 (by rw [tags_of_head hh]; simp [Frame.tag])
      rcases ha.started j hj with h2 | h2 <;> rw [hA] at h2 <;> simp [CS.ended] at h2
    · rcases h.step hc hl.1 with h1 | h1
      · have := steps_ub (c := c) more h1
        rw [show St.steps c (s.step c e) more = St.steps c s (e :: more) from rfl, hu] at this
        simp at this
      · exact asked_once hc more (pre ++ [e]) h1 (ha.step h.inv h.ub hl.1) (List.mem_append_left _ hj) hl.2 hu hm

theorem asked_run {c : Cfg} (hc : c.Ok) : ∀ (es pre : List Ev) {g nc : Bool} {s : St}, All c g nc s pre →
    Asked pre s → Legal c s es → (s.steps c es).ub = false → Asked (pre ++ es) (s.steps c es)
  | [], pre, _, _, _, _, ha, _, _ => by rw [List.append_nil]; exact ha
  | e :: es, pre, g, nc, s, h, ha, hl, hu => by
    rcases h.step hc hl.1 with h1 | h1
    · have := steps_ub (c := c) es h1
      rw [show St.steps c (s.step c e) es = St.steps c s (e :: es) from rfl, hu] at this
      simp at this
    · have := asked_run hc es (pre ++ [e]) h1 (ha.step h.inv h.ub hl.1) hl.2 hu
      rw [List.append_assoc] at this
      exact this

theorem outcome_prefix {pre post : List Ev} {j : Nat} (h : outcome (pre ++ post) j = none) : outcome pre j = none := by
  unfold outcome at *
  rw [List.filterMap_append, List.findSome?_append] at h
  exact (Option.or_eq_none_iff.1 h).1

end Cobalt.Comb
