import Verif.Rpc.Ends
/-! Helper: how a worker is made to answer a coroutine that has ended. -/
namespace Cobalt.Rpc

/-- A worker has the request of `j`, which is still there; everybody has been started and nobody has failed. -/
structure Trap (P : Prog) (s : St) (x j : Nat) : Prop where
  lt : x < P.workers
  k : s.k x = .busy j
  w : s.w j = .sent ∨ s.w j = .receiving
  ok : ∀ i e, s.w i ≠ .failed e
  ub : s.ub = false

theorem Trap.untold {P : Prog} {s : St} (h : Inv P s) {x j : Nat} (t : Trap P s x j) (i : Nat) : s.told i = false := by
  cases e : s.told i with
  | false => rfl
  | true =>
    obtain ⟨k, e, -, hk⟩ := h.told i e
    exact absurd hk (t.ok k e)

theorem Trap.live {P : Prog} {s : St} (h : Inv P s) {x j : Nat} (t : Trap P s x j) (i : Nat) :
    s.w i ≠ .stop ∧ s.w i ≠ .aborted := by
  constructor <;> intro e
  · have := h.abrt i (.inl e); rw [t.untold h i] at this; cases this
  · have := h.abrt i (.inr e); rw [t.untold h i] at this; cases this

/-- Somebody but the worker `x` can go on as long as `i` has calls to make. -/
theorem Trap.progress {P : Prog} {s : St} (h : Inv P s) {x j i : Nat} (t : Trap P s x j) (hj : s.joined = true)
    (h2 : 2 ≤ P.workers) (hi : i < P.works) (hij : i ≠ j) (hf : P.fails i) : ∃ e, s.can P e = true ∧ e ≠ .worker x := by
  have hl := t.live h
  have key : ∀ y, y < P.workers → y ≠ x → s.k y ≠ .waiting → s.k y ≠ .ended → ∃ e, s.can P e = true ∧ e ≠ .worker x := by
    intro y hy hyx h3 h4
    cases ek : s.k y with
    | waiting => exact absurd ek h3
    | ended => exact absurd ek h4
    | idle => exact ⟨.worker y, (can_worker y).2 ⟨hy, .inl ek⟩, by simpa using hyx⟩
    | busy l => exact ⟨.worker y, (can_worker y).2 ⟨hy, .inr ⟨l, ek⟩⟩, by simpa using hyx⟩
    | answering l =>
      have hw : s.w l = .sent := by
        rcases h.ans y l ek with h5 | h5
        · exact h5
        · exact absurd h5 (hl l).1
      have hlw : l < P.works := Classical.byContradiction fun hn => by rw [h.here l (by omega)] at hw; cases hw
      exact ⟨.resume l, (can_resume l).2 ⟨hlw, .inl hw⟩, by simp⟩
  have hopen : s.closed = false := by
    have hjw : j < P.works := Classical.byContradiction fun hn => by
      rcases t.w with e | e <;> rw [h.here j (by omega)] at e <;> cases e
    exact h.open' hjw (by rcases t.w with e | e <;> rw [e] <;> rfl)
  have hend : ∀ y, s.k y ≠ .ended := fun y e => by have := h.end' y e; rw [hopen] at this; cases this
  cases e : s.w i with
  | new => exact absurd e (h.jn hj i hi)
  | sent => exact ⟨.resume i, (can_resume i).2 ⟨hi, .inl e⟩, by simp⟩
  | got o => exact ⟨.resume i, (can_resume i).2 ⟨hi, .inr (.inr ⟨o, e⟩)⟩, by simp⟩
  | stop => exact absurd e (hl i).1
  | aborted => exact absurd e (hl i).2
  | failed a => exact absurd e (t.ok i a)
  | done =>
    exfalso
    have h3 := h.done i e
    have h4 := h.tak i
    rw [h3, List.take_of_length_le (Nat.le_refl _)] at h4
    obtain ⟨a, ha⟩ := hf
    rw [h4, List.mem_map] at ha
    obtain ⟨_, _, h5⟩ := ha
    cases h5
  | receiving =>
    obtain ⟨y, hy, hy'⟩ := h.has i (by rw [e]; trivial)
    refine key y hy ?_ ?_ (hend y)
    · intro e'; subst e'; rw [t.k] at hy'; simp [K.holds] at hy'; exact hij hy'.symm
    · intro e'; rw [e'] at hy'; cases hy'
  | sending =>
    obtain ⟨y, hy, hyx⟩ : ∃ y, y < P.workers ∧ y ≠ x := by
      by_cases hx : x = 0
      · exact ⟨1, by omega, by omega⟩
      · exact ⟨0, by omega, fun h => hx h.symm⟩
    refine key y hy hyx (fun e' => ?_) (hend y)
    have h3 := (h.tk y).2 e'
    have h4 := (h.snd i).2 e
    rcases h.excl with h5 | h5
    · rw [h5] at h4; cases h4
    · rw [h5] at h3; cases h3

attribute [local grind =] upd_app K.holds W.out W.calls W.dead

theorem Trap.not_got {P : Prog} {s : St} {x j : Nat} (t : Trap P s x j) (o : Out) : s.w j ≠ .got o := by
  intro e; rcases t.w with h | h <;> rw [e] at h <;> cases h

theorem Trap.request {P : Prog} {s : St} (h : Inv P s) {x j i : Nat} (t : Trap P s x j) (hij : i ≠ j) (res : Nat → List Nat) :
    Trap P (St.request P { s with res := res } i) x j := by
  have hk := t.k
  have hT := h.tk
  have hu := t.untold h i
  obtain ⟨t1, t2, t3, t4, t5⟩ := t
  unfold St.request
  split
  · unfold St.die; constructor <;> (try dsimp only) <;> grind
  · split
    · unfold St.die; constructor <;> (try dsimp only) <;> grind
    · split
      · constructor <;> (try dsimp only) <;> grind
      · constructor <;> (try dsimp only) <;> grind

theorem Trap.receive {P : Prog} {s : St} (h : Inv P s) {x j i : Nat} (t : Trap P s x j) : Trap P (s.receive P i) x j := by
  have hu := t.untold h i
  have hq : ∀ y, s.k y ≠ .answering j := by
    intro y hy
    have := h.uniq x y j (by rw [t.k]; rfl) (by rw [hy]; rfl)
    subst this
    rw [t.k] at hy; cases hy
  obtain ⟨t1, t2, t3, t4, t5⟩ := t
  unfold St.receive
  split
  · rename_i ht; rw [hu] at ht; cases ht
  · split
    · rename_i ha
      rw [List.any_eq_true] at ha
      obtain ⟨y, -, hy⟩ := ha
      have hy : s.k y = .answering i := by simpa using hy
      have hij : i ≠ j := fun e => hq y (by rw [hy, e])
      split
      · constructor <;> (try dsimp only) <;> grind
      · exact ⟨t1, t2, t3, t4, t5⟩
    · constructor <;> (try dsimp only) <;> grind

theorem Trap.reply {P : Prog} {s : St} (h : Inv P s) {x j y i : Nat} (t : Trap P s x j) (hy : y ≠ x) (hk : s.k y = .busy i) :
    Trap P (s.reply P y i) x j := by
  have hl := t.live h
  have hij : i ≠ j := by
    intro e; subst e
    exact hy (h.uniq y x i (by rw [hk]; rfl) (by rw [t.k]; rfl))
  have hd : (s.w i).dead = false := by
    have := h.only y i (by rw [hk]; rfl)
    have := hl i
    cases e : s.w i <;> simp_all [W.out, W.dead]
  obtain ⟨t1, t2, t3, t4, t5⟩ := t
  unfold St.reply
  rw [if_neg (by rw [hd]; simp)]
  split
  · constructor <;> (try dsimp only) <;> grind
  · constructor <;> (try dsimp only) <;> grind

theorem Trap.take {P : Prog} {s : St} (h : Inv P s) {x j y : Nat} (t : Trap P s x j) (hy : y ≠ x) :
    Trap P (s.take y) x j := by
  have hs := h.snd
  obtain ⟨t1, t2, t3, t4, t5⟩ := t
  unfold St.take
  split
  · constructor <;> (try dsimp only) <;> grind
  · split
    · constructor <;> (try dsimp only) <;> grind
    · constructor <;> (try dsimp only) <;> grind

/-- Until somebody fails nothing changes, if the worker `x` does not go on. -/
theorem Trap.step {P : Prog} {s : St} (h : Inv P s) {x j : Nat} (t : Trap P s x j) (hj : s.joined = true) {e : Ev}
    (hc : s.can P e = true) (he : e ≠ .worker x) :
    (Trap P (s.step P e) x j ∧ (s.step P e).joined = true) ∨ ∃ l a, e = .resume l ∧ l < P.works ∧ s.w l = .got (.fail a) := by
  have ha : s.step P e = s.act P e := by simp [St.step, t.ub, hc]
  have hjj : ∀ e, (∃ i, e = .resume i) ∨ (∃ i, e = .worker i) → (s.act P e).joined = true := by
    intro e he
    rcases he with ⟨i, rfl⟩ | ⟨i, rfl⟩
    · simp only [St.act, St.resume]
      split
      · unfold St.receive; split
        · exact hj
        · split
          · split <;> exact hj
          · exact hj
      · exact hj
      · rename_i o _
        cases o with
        | ok r => simp only [St.answer, St.request]; split
                  · exact hj
                  · split
                    · exact hj
                    · split <;> exact hj
        | fail a => simp only [St.answer]; split <;> exact hj
      · exact hj
    · simp only [St.act, St.worker]
      split
      · unfold St.take; split
        · exact hj
        · split <;> exact hj
      · unfold St.reply; split
        · exact hj
        · split <;> exact hj
      · exact hj
  rw [ha]
  cases e with
  | start i => have := ((can_start i).1 hc).2.1; rw [hj] at this; cases this
  | join => have := (can_join.1 hc).1; rw [hj] at this; cases this
  | close =>
    exfalso
    have hjw : j < P.works := Classical.byContradiction fun hn => by
      rcases t.w with e | e <;> rw [h.here j (by omega)] at e <;> cases e
    have := (can_close.1 hc).2.2 j hjw
    rcases t.w with e | e <;> rw [e] at this <;> cases this
  | resume i =>
    have hi := ((can_resume i).1 hc).1
    rcases ((can_resume i).1 hc).2 with hw | hw | ⟨o, hw⟩
    · left
      refine ⟨?_, hjj _ (.inl ⟨i, rfl⟩)⟩
      simp only [St.act, St.resume, hw]
      exact t.receive h
    · exact absurd hw (t.live h i).1
    · cases o with
      | ok r =>
        left
        refine ⟨?_, hjj _ (.inl ⟨i, rfl⟩)⟩
        simp only [St.act, St.resume, hw, St.answer]
        exact t.request h (fun e => t.not_got _ (e ▸ hw)) _
      | fail a => exact .inr ⟨i, a, rfl, hi, hw⟩
  | worker y =>
    have hy : y ≠ x := by simpa using he
    left
    refine ⟨?_, hjj _ (.inr ⟨y, rfl⟩)⟩
    simp only [St.act, St.worker]
    rcases ((can_worker y).1 hc).2 with hk | ⟨i, hk⟩
    · rw [hk]; exact t.take h hy
    · rw [hk]; exact t.reply h hy hk

/-- Somebody fails: the coroutine whose request the worker has is told to stop, ends, and is answered. -/
theorem Trap.ends {P : Prog} {s : St} (h : Inv P s) {x j l a : Nat} (t : Trap P s x j) (hj : s.joined = true)
    (hl : l < P.works) (hw : s.w l = .got (.fail a)) : (s.steps P [.resume l, .resume j, .worker x]).ub = true := by
  have hlj : j ≠ l := fun e => t.not_got _ (e ▸ hw)
  have hjw : j < P.works := Classical.byContradiction fun hn => by
    rcases t.w with e | e <;> rw [h.here j (by omega)] at e <;> cases e
  have h1 : s.step P (.resume l) = (s.die l (.failed a)).cancelAll l := by
    have hc : s.can P (.resume l) = true := (can_resume l).2 ⟨hl, .inr (.inr ⟨_, hw⟩)⟩
    simp [St.step, t.ub, hc, St.act, St.resume, hw, St.answer, hj]
  have hdj : (s.w j).dead = false := by rcases t.w with e | e <;> rw [e] <;> rfl
  have hs1 : (s.die l (.failed a)).w j = s.w j := upd_ne _ _ hlj
  have hk1 : (s.step P (.resume l)).k x = .busy j := by rw [h1]; simp [St.cancelAll, St.die, t.k]
  have hu1 : (s.step P (.resume l)).ub = false := by rw [h1]; exact t.ub
  have ht1 : (s.step P (.resume l)).told j = true := by
    rw [h1]; simp [St.cancelAll, hs1, hdj, hlj]
  have hw1 : (s.step P (.resume l)).w j = .sent ∨ (s.step P (.resume l)).w j = .stop := by
    rw [h1]
    simp only [St.cancelAll, if_neg hlj, hs1]
    rcases t.w with e | e <;> rw [e] <;> simp [W.cancel]
  change (((s.step P (.resume l)).step P (.resume j)).step P (.worker x)).ub = true
  generalize s.step P (.resume l) = u at *
  have h2 : u.step P (.resume j) = u.die j .aborted := by
    have hc : u.can P (.resume j) = true := (can_resume j).2 ⟨hjw, by rcases hw1 with e | e <;> simp [e]⟩
    rcases hw1 with e | e
    · simp [St.step, hu1, hc, St.act, St.resume, e, St.receive, ht1]
    · simp [St.step, hu1, hc, St.act, St.resume, e]
  have hk2 : (u.die j .aborted).k x = .busy j := by simp [St.die, hk1]
  have hw2 : (u.die j .aborted).w j = .aborted := by simp [St.die]
  have hu2 : (u.die j .aborted).ub = false := hu1
  rw [h2]
  have hc : (u.die j .aborted).can P (.worker x) = true := (can_worker x).2 ⟨t.lt, .inr ⟨j, hk2⟩⟩
  simp [St.step, hu2, hc, St.act, St.worker, hk2, St.reply, hw2, W.dead]

theorem steps_cons (P : Prog) (s : St) (e : Ev) (es : List Ev) : s.steps P (e :: es) = (s.step P e).steps P es := rfl

/-- Sooner or later somebody fails. -/
theorem Trap.ub_later {P : Prog} {s : St} (h : Inv P s) {x j i : Nat} (t : Trap P s x j) (hj : s.joined = true)
    (h2 : 2 ≤ P.workers) (hi : i < P.works) (hij : i ≠ j) (hf : P.fails i) : ∃ es, (s.steps P es).ub = true := by
  generalize hm : s.work P = m
  induction m using Nat.strongRecOn generalizing s with
  | _ m ih =>
    obtain ⟨e, hc, he⟩ := t.progress h hj h2 hi hij hf
    rcases t.step h hj hc he with ⟨t', hj'⟩ | ⟨l, a, -, hl, hw⟩
    · obtain ⟨es, hes⟩ := ih _ (by rw [← hm]; exact step_lt h t.ub hc t'.ub) (h.step e) t' hj' rfl
      exact ⟨e :: es, hes⟩
    · exact ⟨_, t.ends h hj hl hw⟩

/-- The coroutines of a list are called. -/
theorem Trap.starts {P : Prog} {s : St} (h : Inv P s) {x j : Nat} (t : Trap P s x j) (hj : s.joined = false) (l : List Nat)
    (hl : ∀ i ∈ l, i < P.works) :
    Trap P (s.steps P (l.map .start)) x j ∧ (s.steps P (l.map .start)).joined = false ∧
      (∀ i ∈ l, (s.steps P (l.map .start)).w i ≠ .new) ∧ ∀ i, s.w i ≠ .new → (s.steps P (l.map .start)).w i ≠ .new := by
  induction l generalizing s with
  | nil => exact ⟨t, hj, by simp, fun _ h => h⟩
  | cons i l ih =>
    have hi := hl i (by simp)
    have key : Trap P (s.step P (.start i)) x j ∧ (s.step P (.start i)).joined = false ∧
        (s.step P (.start i)).w i ≠ .new ∧ ∀ k, s.w k ≠ .new → (s.step P (.start i)).w k ≠ .new := by
      by_cases hw : s.w i = .new
      · have hc : s.can P (.start i) = true := (can_start i).2 ⟨hi, hj, hw⟩
        have hij : i ≠ j := by intro e; subst e; rcases t.w with e | e <;> rw [hw] at e <;> cases e
        have e : s.step P (.start i) = s.request P i := by simp [St.step, t.ub, hc, St.act]
        rw [e]
        refine ⟨t.request h hij s.res, ?_⟩
        unfold St.request St.die
        split
        · refine ⟨hj, by simp, fun k hk => ?_⟩
          dsimp only; rw [upd_app]; split
          · simp
          · exact hk
        · split
          · refine ⟨hj, by simp, fun k hk => ?_⟩
            dsimp only; rw [upd_app]; split
            · simp
            · exact hk
          · split
            · refine ⟨hj, by simp, fun k hk => ?_⟩
              dsimp only; rw [upd_app]; split
              · simp
              · exact hk
            · refine ⟨hj, by simp, fun k hk => ?_⟩
              dsimp only; rw [upd_app]; split
              · simp
              · exact hk
      · have e : s.step P (.start i) = s := by
          have : s.can P (.start i) = false := by
            cases hc : s.can P (.start i) with
            | false => rfl
            | true => exact absurd ((can_start i).1 hc).2.2 hw
          simp [St.step, this]
        rw [e]
        exact ⟨t, hj, hw, fun _ h => h⟩
    obtain ⟨k1, k2, k3, k4⟩ := key
    obtain ⟨a, b, c, d⟩ := ih (h.step _) k1 k2 fun k hk => hl k (by simp [hk])
    refine ⟨a, b, fun k hk => ?_, fun k hk => d k (k4 k hk)⟩
    rcases List.mem_cons.1 hk with rfl | hk
    · exact d _ k3
    · exact c k hk

theorem steps_append (P : Prog) (s : St) (a b : List Ev) : s.steps P (a ++ b) = (s.steps P a).steps P b := by
  simp [St.steps, List.foldl_append]

/-- A coroutine has a call to make and another one fails. -/
theorem reach_ub {P : Prog} {i j : Nat} (h2 : 2 ≤ P.workers) (hi : i < P.works) (hj : j < P.works) (hij : i ≠ j)
    (hf : P.fails i) (hc : P.calls j ≠ []) : ∃ es, (run P es).ub = true := by
  have t0 : Trap P (run P [.worker 0, .start j]) 0 j := by
    have c0 : (P.calls j)[0]? ≠ none := by
      cases e : P.calls j with
      | nil => exact absurd e hc
      | cons a l => simp
    have e1 : St.step P {} (.worker 0) = { takers := [0], k := upd (fun _ => .idle) 0 .waiting } := by
      have : St.can P {} (.worker 0) = true := (can_worker 0).2 ⟨by omega, .inl rfl⟩
      simp [St.step, this, St.act, St.worker, St.take]
    have e2 : run P [.worker 0, .start j] = { takers := [], k := upd (upd (fun _ => .idle) 0 .waiting) 0 (.busy j), w := upd (fun _ => .new) j .sent } := by
      show St.step P (St.step P {} (.worker 0)) (.start j) = _
      rw [e1]
      have : St.can P { takers := [0], k := upd (fun _ => .idle) 0 .waiting } (.start j) = true := (can_start j).2 ⟨hj, rfl, rfl⟩
      simp only [St.step, this, St.act, St.request, St.call]
      cases e : (P.calls j)[([] : List Nat).length]? with
      | none => exact absurd e c0
      | some o => rfl
    rw [e2]
    refine ⟨by omega, by simp, by simp, fun i e => ?_, rfl⟩
    dsimp only
    rw [upd_app]
    split <;> simp
  have j0 : (run P [.worker 0, .start j]).joined = false := by
    have : (St.step P {} (.worker 0)).joined = false := by
      simp only [St.step, St.act, St.worker, St.take]
      split <;> rfl
    show (St.step P (St.step P {} (.worker 0)) (.start j)).joined = false
    generalize St.step P {} (.worker 0) = u at *
    simp only [St.step, St.act, St.request]
    split
    · split
      · exact this
      · split
        · exact this
        · split <;> exact this
    · exact this
  have h0 := Inv.run P [.worker 0, .start j]
  obtain ⟨t1, j1, n1, -⟩ := t0.starts h0 j0 (List.range P.works) fun i hi => List.mem_range.1 hi
  have h1 := h0.steps ((List.range P.works).map .start)
  have hf1 : ((run P [.worker 0, .start j]).steps P ((List.range P.works).map .start)).failedOne P = none := by
    unfold St.failedOne
    rw [List.find?_eq_none]
    intro k _
    have := t1.ok k
    split
    · rename_i e he; exact absurd he (this e)
    · simp
  have hs : ∃ es, run P es = { (run P [.worker 0, .start j]).steps P ((List.range P.works).map .start) with joined := true } := by
    refine ⟨[.worker 0, .start j] ++ (List.range P.works).map .start ++ [.join], ?_⟩
    rw [run, steps_append, steps_append]
    change St.step P ((run P [.worker 0, .start j]).steps P ((List.range P.works).map .start)) .join = _
    generalize (run P [.worker 0, .start j]).steps P ((List.range P.works).map .start) = u at *
    have hc : u.can P .join = true := can_join.2 ⟨j1, fun i hi => n1 i (List.mem_range.2 hi)⟩
    simp only [St.step, hc, t1.ub, St.act, St.join, hf1]
    rfl
  obtain ⟨es, hes⟩ := hs
  have h2' := Inv.run P es
  have t2 : Trap P (run P es) 0 j := by rw [hes]; exact ⟨t1.lt, t1.k, t1.w, t1.ok, t1.ub⟩
  obtain ⟨fs, hfs⟩ := t2.ub_later h2' (by rw [hes]) h2 hi hij hf
  exact ⟨es ++ fs, by rw [run, steps_append]; exact hfs⟩

end Cobalt.Rpc
