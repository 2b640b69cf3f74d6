import Verif.Gen.KeptProps
/-! Who is told that a generator is exhausted. Lemmas for `Gen/TrueProps.lean`. -/
namespace Cobalt.Gen

open Prom (upd upd_apply)

variable {p : Sp} {s : St}

/-- An await is ended with nothing to give: the body reaches `co_await initial` while the generator is awaited and no
value was pushed, or an await is interrupted that is not the one that waits. -/
def Empties (s : St) : Ev → Prop
  | .initial => s.recv = true ∧ s.awaited ≠ none ∧ s.pushed = none ∧ s.result = none
  | .interrupt a => s.awaited ≠ none ∧ s.awaited ≠ some a ∧ s.result = none
  | _ => False

instance (s : St) (e : Ev) : Decidable (Empties s e) := by
  cases e <;> unfold Empties <;> infer_instance

def NeverEmpties : St → List Ev → Prop
  | _, [] => True
  | s, e :: es => ¬Empties s e ∧ NeverEmpties (s.step e) es

/-- The body has ended exactly if the receiver says so, and then nobody waits. -/
structure Ends (p : Sp) (s : St) : Prop where
  ended : s.recv = true → s.done = p.ended
  wait : s.recv = true → s.done = true → s.awaited = none

/-- Nobody was told that the generator is exhausted before it was. -/
def Right (s : St) : Prop :=
  ∀ a, (a, Got.err .returnedVoid) ∈ s.log → s.done = true ∧ s.result = none ∧ s.exc = none

theorem resumeAw_facts (b : Basic p s) {a : Nat} {w : Aw} (hw : s.aw a = some w) (hu : (s.resumeAw a).ub = false) :
    (w.ex = none ∧ s.exc = none ∧ s.result = none → (a, Got.err .returnedVoid) ∈ (s.resumeAw a).log) ∧
    (¬(w.ex = none ∧ s.exc = none ∧ s.result = none) → ∀ x, (x, Got.err .returnedVoid) ∈ (s.resumeAw a).log →
      (x, Got.err .returnedVoid) ∈ s.log) ∧
    (s.exc = none → (s.resumeAw a).exc = none) ∧ (s.result = none → (s.resumeAw a).result = none) := by
  have b1 := b.1; have b2 := b.2; have b6 := b.6 a w
  unfold St.resumeAw at hu ⊢
  simp only [hw] at hu ⊢
  cases hx : w.ex with
  | some e =>
    have := (b6 e hw hx).2
    simp only [hx] at hu ⊢
    refine ⟨fun h => absurd h.1 (by simp), fun _ x h => ?_, fun h => h, fun h => h⟩
    simp only [St.give, List.mem_cons, Prod.mk.injEq, Got.err.injEq] at h
    rcases h with h | h
    · exact absurd h.2.symm this
    · exact h
  | none =>
    simp only [hx] at hu ⊢
    cases he : s.exc with
    | some e =>
      have := b2 e he
      simp only [he] at hu ⊢
      refine ⟨fun h => absurd h.2.1 (by simp), fun _ x h => ?_, fun h => rfl, fun h => h⟩
      simp only [St.give, List.mem_cons, Prod.mk.injEq, Got.err.injEq] at h
      rcases h with h | h
      · rw [← h.2] at this; cases this
      · exact h
    | none =>
      simp only [he] at hu ⊢
      cases hr : s.result with
      | none =>
        refine ⟨fun _ => by simp [St.give], fun h => absurd ⟨trivial, trivial, rfl⟩ h, fun _ => he, fun _ => hr⟩
      | some v =>
        simp only [hr] at hu ⊢
        refine ⟨fun h => absurd h.2.2 (by simp), fun _ x h => ?_, fun _ => ?_, fun h => by cases h⟩
        · split at h
          · split at h
            · exact h
            · simpa [St.takeResult, St.give] using h
          · simpa [St.takeResult, St.give] using h
        · split
          · split
            · simp
            · simp [St.takeResult, St.give]
          · simp [St.takeResult, St.give, he]

/-- Resuming the one who waits. -/
structure Woke (s t : St) : Prop where
  yes : s.awaited ≠ none ∧ s.exc = none ∧ s.result = none → ∃ a, (a, Got.err .returnedVoid) ∈ t.log
  no : ¬(s.awaited ≠ none ∧ s.exc = none ∧ s.result = none) → ∀ x, (x, Got.err .returnedVoid) ∈ t.log →
      (x, Got.err .returnedVoid) ∈ s.log
  exc : s.exc = none → t.exc = none
  result : s.result = none → t.result = none
  done : t.done = s.done

theorem wake_woke (b : Basic p s) (h : Wait s) (hu : s.wake.ub = false) : Woke s s.wake := by
  have hd := (wake_calm b hu).done
  unfold St.wake at hu hd ⊢
  cases ha : s.awaited with
  | none =>
    exact ⟨fun h => absurd ha h.1, fun _ _ h => by simpa [ha] using h, fun h => h, fun h => h, rfl⟩
  | some a =>
    obtain ⟨w, hw, hx⟩ := h.1 a ha
    simp only [ha] at hu hd ⊢
    have b' : Basic p { s with awaited := none } := ⟨b.1, b.2, b.3, b.4, b.5, b.6⟩
    obtain ⟨f1, f2, f3, f4⟩ := resumeAw_facts b' (w := w) hw hu
    exact ⟨fun h => ⟨a, f1 ⟨hx, h.2.1, h.2.2⟩⟩, fun h => f2 fun k => h ⟨by simp [ha], k.2.1, k.2.2⟩, f3, f4, hd⟩

/-- After an event: nobody new was told so, or somebody was while the body has not ended. -/
def After (s : St) (e : Ev) (q : Sp) (t : St) : Prop :=
  Ends q t ∧ (¬Empties s e → Right t) ∧ (Empties s e → (∃ a, (a, Got.err .returnedVoid) ∈ t.log) ∧ t.done = false ∧ t.recv = true)

/-- The body runs: nobody was told. -/
theorem Right.busy (r : Right s) (hd : s.done = false) (x : Nat) : (x, Got.err .returnedVoid) ∉ s.log := by
  intro h; have := (r x h).1; rw [hd] at this; cases this

theorem suspend_awaited (s : St) (h : s.awaited = none) : s.suspend.awaited = none := by
  unfold St.suspend
  split
  · exact h
  · split
    · unfold St.bodyResume; split <;> exact h
    · exact (wake_awaited _).1

theorem wake_done (s : St) : s.wake.done = s.done := by
  unfold St.wake
  split
  · rfl
  · unfold St.resumeAw St.takeResult St.give
    repeat' split
    all_goals rfl

theorem suspend_done (s : St) : s.suspend.done = s.done ∧ s.suspend.recv = s.recv := by
  unfold St.suspend
  split
  · exact ⟨rfl, rfl⟩
  · split
    · unfold St.bodyResume; split <;> exact ⟨rfl, rfl⟩
    · exact ⟨wake_done _, (wake_awaited _).2⟩

/-- A suspension point of a body that runs. -/
theorem suspend_log (b : Basic p s) (w : Wait s) (hr : s.recv = true) (hd : s.done = false)
    (hn : s.exc = none) (hv : s.suspend.ub = false) :
    (s.awaited ≠ none ∧ s.pushed = none ∧ s.result = none → ∃ a, (a, Got.err .returnedVoid) ∈ s.suspend.log) ∧
    (¬(s.awaited ≠ none ∧ s.pushed = none ∧ s.result = none) → ∀ x, (x, Got.err .returnedVoid) ∈ s.suspend.log →
      (x, Got.err .returnedVoid) ∈ s.log) := by
  unfold St.suspend at hv ⊢
  rw [if_neg (by simp [hr])] at hv ⊢
  split
  · rename_i hp
    refine ⟨fun h => absurd h.2.1 hp.1, fun _ x h => ?_⟩
    unfold St.bodyResume at h
    split at h <;> exact h
  · rename_i hp
    rw [if_neg hp] at hv
    have hpr : s.result = none → s.pushed = none := by
      intro h
      cases hq : s.pushed with
      | none => rfl
      | some q => exact absurd ⟨by simp [hq], .inr h⟩ hp
    have b' : Basic p { s with phase := .parked } :=
      ⟨b.1, b.2, b.3, fun _ h => (by rw [show s.done = true from h] at hd; cases hd), b.5, b.6⟩
    have k := wake_woke (s := { s with phase := .parked }) b' ⟨w.1, w.2⟩ hv
    exact ⟨fun h => k.yes ⟨h.1, hn, h.2.2⟩, fun h => k.no fun k => h ⟨k.1, hpr k.2.2, k.2.2⟩⟩

theorem out_ended (p : Sp) (g : Got) : (p.out g).ended = p.ended := by unfold Sp.out; split <;> rfl

theorem bodyResume_fields (s : St) : s.bodyResume.log = s.log ∧ s.bodyResume.done = s.done ∧ s.bodyResume.recv = s.recv ∧
    s.bodyResume.result = s.result ∧ s.bodyResume.exc = s.exc ∧ s.bodyResume.awaited = s.awaited := by
  unfold St.bodyResume; split <;> exact ⟨rfl, rfl, rfl, rfl, rfl, rfl⟩

/-- The log, the receiver and who waits are as before. -/
theorem After.same {e : Ev} {q : Sp} {t : St} (n : Ends p s) (r : Right s) (he : ¬Empties s e) (h1 : t.log = s.log)
    (h2 : t.result = s.result) (h3 : t.exc = s.exc) (h4 : t.done = s.done) (h5 : t.recv = true → s.recv = true)
    (h6 : s.done = true → t.awaited = s.awaited)
    (h7 : t.recv = true → q.ended = p.ended) : After s e q t := by
  refine ⟨⟨fun hr => by rw [h4, n.1 (h5 hr), h7 hr], fun hr hd => ?_⟩, fun _ a ha => ?_, fun k => absurd k he⟩
  · rw [h4] at hd
    rw [h6 hd]; exact n.2 (h5 hr) hd
  · rw [h1] at ha; rw [h2, h3, h4]; exact r a ha

theorem step_after (b : Basic p s) (w : Wait s) (n : Ends p s) (r : Right s) (hu : s.ub = false) {e : Ev}
    (hc : s.can e = true) (hv : (s.step e).ub = false) : After s e (p.step e) (s.step e) := by
  unfold St.step at hv ⊢
  rw [if_neg (by simp [hu, hc])] at hv ⊢
  cases e with
  | initial =>
    have hp := can_running hc (.inl rfl)
    dsimp only at hv ⊢
    by_cases hr : s.recv = true
    · obtain ⟨hd, he⟩ := b.busy (by simp [hp]) hr
      simp only [if_pos hr] at hv ⊢
      have b' : Basic p { s with lazy := true } := ⟨b.1, b.2, b.3, b.4, b.5, b.6⟩
      obtain ⟨k1, k2⟩ := suspend_log (s := { s with lazy := true }) b' ⟨w.1, w.2⟩ hr hd he hv
      obtain ⟨d1, d2⟩ := suspend_done { s with lazy := true }
      have d1 : _ = s.done := d1
      have d2 : _ = s.recv := d2
      refine ⟨⟨fun _ => by rw [d1]; exact n.1 hr, fun _ h => by rw [d1, hd] at h; cases h⟩, fun h a ha => ?_, fun h => ?_⟩
      · exact absurd (k2 (fun k => h ⟨hr, k⟩) a ha) (r.busy hd a)
      · exact ⟨k1 h.2, d1.trans hd, d2.trans hr⟩
    · simp only [if_neg hr] at hv ⊢
      have hr' : s.recv = false := by simpa using hr
      simp only [St.suspend, hr', if_true] at hv ⊢
      exact .same n r (fun h => hr h.1) rfl rfl rfl rfl (fun h => by simp [hr'] at h) (fun _ => rfl) (fun _ => rfl)
  | yield v =>
    have hp := can_running hc (.inr (.inl ⟨v, rfl⟩))
    dsimp only at hv ⊢
    obtain ⟨p1, p2, p3, p4, p5, p6, p7, p8⟩ := put_fields s v hu
    by_cases hr : s.recv = true
    · obtain ⟨hd, he⟩ := b.busy (by simp [hp]) hr
      simp only [if_pos hr] at hv ⊢
      by_cases hub : (s.put v).ub = true
      · simp only [if_pos hub] at hv; rw [hub] at hv; cases hv
      · simp only [if_neg hub] at hv ⊢
        obtain ⟨a1, -, -, a4⟩ := put_total b v (by simpa using hub)
        obtain ⟨-, k2⟩ := suspend_log a1 ⟨by rw [p2, p3]; exact w.1, by rw [p2, p5]; exact w.2⟩ (p5.trans hr) (a4.trans hd)
          (p7.trans he) hv
        obtain ⟨d1, d2⟩ := suspend_done (s.put v)
        have hl : (s.put v).log = s.log := by unfold St.put; repeat' split
                                              all_goals rfl
        refine ⟨⟨fun _ => ?_, fun _ h => ?_⟩, fun _ a ha => ?_, fun h => absurd h id⟩
        · rw [d1, a4]; exact (n.1 hr).trans (out_ended p _).symm
        · rw [d1, a4, hd] at h; cases h
        · have := k2 (fun k => p8 k.2.2) a ha
          rw [hl] at this
          exact absurd this (r.busy hd a)
    · simp only [if_neg hr] at hv ⊢
      have hr' : s.recv = false := by simpa using hr
      simp only [St.suspend, hr', if_true] at hv ⊢
      exact .same n r id rfl rfl rfl rfl (fun h => by simp [hr'] at h) (fun _ => rfl) (fun h => by simp [hr'] at h)
  | ret v =>
    have hp := can_running hc (.inr (.inr (.inl ⟨v, rfl⟩)))
    dsimp only at hv ⊢
    obtain ⟨p1, p2, p3, p4, p5, p6, p7, p8⟩ := put_fields s v hu
    by_cases hr : s.recv = true
    · obtain ⟨hd, he⟩ := b.busy (by simp [hp]) hr
      simp only [if_pos hr] at hv ⊢
      by_cases hub : (s.put v).ub = true
      · simp only [if_pos hub] at hv; rw [hub] at hv; cases hv
      · simp only [if_neg hub] at hv ⊢
        obtain ⟨a1, -, -, a4⟩ := put_total b v (by simpa using hub)
        have b' : Basic p { s.put v with phase := .gone, done := true } :=
          ⟨a1.1, a1.2, fun _ _ => rfl, fun _ _ => rfl, a1.5, a1.6⟩
        have w' : Wait { s.put v with phase := .gone, done := true } :=
          ⟨by rw [show ({ s.put v with phase := .gone, done := true } : St).awaited = s.awaited from p2,
              show ({ s.put v with phase := .gone, done := true } : St).aw = s.aw from p3]; exact w.1,
            by rw [show ({ s.put v with phase := .gone, done := true } : St).awaited = s.awaited from p2,
              show ({ s.put v with phase := .gone, done := true } : St).recv = s.recv from p5]; exact w.2⟩
        have k := wake_woke b' w' hv
        have hl : (s.put v).log = s.log := by unfold St.put; repeat' split
                                              all_goals rfl
        refine ⟨⟨fun _ => k.done, fun _ _ => (wake_awaited _).1⟩, fun _ a ha => ?_, fun h => absurd h id⟩
        have : (a, Got.err .returnedVoid) ∈ (s.put v).log := k.no (fun k => p8 k.2.2) a ha
        rw [hl] at this
        exact absurd this (r.busy hd a)
    · simp only [if_neg hr] at hv ⊢
      have hr' : s.recv = false := by simpa using hr
      exact .same n r id rfl rfl rfl rfl (fun h => by simp [hr'] at h) (fun _ => rfl) (fun h => by simp [hr'] at h)
  | throw x =>
    have hp := can_running hc (.inr (.inr (.inr ⟨x, rfl⟩)))
    dsimp only at hv ⊢
    by_cases hr : s.recv = true
    · obtain ⟨hd, he⟩ := b.busy (by simp [hp]) hr
      simp only [if_pos hr] at hv ⊢
      have b' : Basic p { s with exc := some (.user x), phase := .gone, done := true } :=
        ⟨b.1, fun e h => (by cases h; rfl), fun _ _ => rfl, fun _ _ => rfl, b.5, b.6⟩
      have k := wake_woke (s := { s with exc := some (.user x), phase := .gone, done := true }) b' ⟨w.1, w.2⟩ hv
      refine ⟨⟨fun _ => k.done, fun _ _ => (wake_awaited _).1⟩, fun _ a ha => ?_, fun h => absurd h id⟩
      exact absurd (k.no (fun k => by simp at k) a ha) (r.busy hd a)
    · simp only [if_neg hr] at hv ⊢
      have hr' : s.recv = false := by simpa using hr
      exact .same n r id rfl rfl rfl rfl (fun h => by simp [hr'] at h) (fun _ => rfl) (fun h => by simp [hr'] at h)
  | kill =>
    have hp : s.phase ≠ .gone := by intro hp; simp [St.can, hp] at hc
    dsimp only [St.kill]
    by_cases hr : s.recv = true
    · obtain ⟨hd, he⟩ := b.busy hp hr
      rw [if_pos hr]
      exact ⟨⟨fun _ => rfl, fun _ _ => rfl⟩, fun _ a ha => absurd ha (r.busy hd a), fun h => absurd h id⟩
    · rw [if_neg hr]
      have hr' : s.recv = false := by simpa using hr
      exact .same n r id rfl rfl rfl rfl (fun h => by simp [hr'] at h) (fun _ => rfl) (fun h => by simp [hr'] at h)
  | run =>
    dsimp only at hv ⊢
    split
    · obtain ⟨f1, f2, f3, f4, f5, f6⟩ := bodyResume_fields s
      exact .same n r id f1 f4 f5 f2 (fun h => by rw [← f3]; exact h) (fun _ => f6) (fun _ => rfl)
    · exact .same n r id rfl rfl rfl rfl (fun h => h) (fun _ => rfl) (fun _ => rfl)
  | await a v =>
    have ha : s.recv = true ∧ s.aw a = none := by simpa [St.can] using hc
    have key : ∀ (t : St) (y : Aw), t.aw = upd s.aw a (some y) → (∀ e, y.ex = some e → ofBody (.err e) = false ∧ e ≠ .returnedVoid) →
        t.log = s.log → t.result = s.result → t.buffer = s.buffer → t.exc = s.exc → t.done = s.done → t.recv = s.recv →
        t.phase = s.phase → t.awaited = s.awaited → (y.ex = none → s.exc = none → s.result = none → s.done = true) →
        (t.resumeAw a).ub = false → After s (.await a v) (p.step (.await a v)) (t.resumeAw a) := by
      intro t y h1 h2 h3 h4 h5 h6 h7 h8 h9 h10 h11 h12
      have b' : Basic p t := by
        refine ⟨by rw [h4, h5]; exact b.1, by rw [h6]; exact b.2, by rw [h8, h6, h7]; exact b.3, by rw [h8, h7, h9]; exact b.4,
          by rw [h8]; exact b.5, ?_⟩
        intro a' w' e k1 k2
        rw [h1, upd_apply] at k1
        split at k1
        · cases k1; exact h2 _ k2
        · exact b.6 _ _ _ k1 k2
      obtain ⟨f1, f2, f3, f4⟩ := resumeAw_facts b' (w := y) (by rw [h1]; simp) h12
      have hd : (t.resumeAw a).done = s.done := (resumeAw_calm b' a h12).done.trans h7
      refine ⟨⟨fun _ => by rw [hd]; exact n.1 ha.1, fun _ k => ?_⟩, fun _ x hx => ?_, fun h => absurd h id⟩
      · rw [(resumeAw_awaited t a).1, h10]; rw [hd] at k; exact n.2 ha.1 k
      · rw [hd]
        by_cases hq : y.ex = none ∧ t.exc = none ∧ t.result = none
        · exact ⟨h11 hq.1 (h6 ▸ hq.2.1) (h4 ▸ hq.2.2), f4 hq.2.2, f3 hq.2.1⟩
        · have := f2 hq x hx
          rw [h3] at this
          obtain ⟨r1, r2, r3⟩ := r x this
          exact ⟨r1, f4 (h4.trans r2), f3 (h6.trans r3)⟩
    dsimp only [St.await] at hv ⊢
    split
    · rename_i hy
      rw [if_pos hy] at hv
      refine key _ { push := v } rfl (by simp) rfl rfl rfl rfl rfl rfl rfl rfl (fun _ h1 h2 => ?_) hv
      simpa [St.ready, h1, h2] using hy
    · rename_i hy
      rw [if_neg hy] at hv
      have hnd : s.done = false := by
        simp only [St.ready, Bool.or_eq_true, not_or, Bool.not_eq_true] at hy
        exact hy.2
      split
      · rename_i hz
        rw [if_pos hz] at hv
        refine key _ { push := v, ex := some .alreadyAwaited } ?_ ?_ rfl rfl rfl rfl rfl rfl rfl rfl (by simp) hv
        · funext x; simp only [upd_apply]; split <;> rfl
        · intro e h; cases h; exact ⟨rfl, by simp⟩
      · have hb : ∀ t : St, t.log = s.log → t.result = s.result → t.exc = s.exc → t.done = s.done → t.recv = s.recv →
            After s (.await a v) (p.step (.await a v)) t := fun t h1 h2 h3 h4 h5 =>
          .same n r id h1 h2 h3 h4 (fun h => by rw [← h5]; exact h) (fun h => by rw [hnd] at h; cases h) (fun _ => rfl)
        have hc : ∀ t : St, t.log = s.log → t.result = s.result → t.exc = s.exc → t.done = s.done → t.recv = s.recv →
            After s (.await a v) (p.step (.await a v)) t.bodyResume := by
          intro t h1 h2 h3 h4 h5
          obtain ⟨f1, f2, f3, f4, f5, -⟩ := bodyResume_fields t
          exact hb _ (f1.trans h1) (f4.trans h2) (f5.trans h3) (f2.trans h4) (f3.trans h5)
        repeat' split
        all_goals first
          | exact hc _ rfl rfl rfl rfl rfl
          | exact hb _ rfl rfl rfl rfl rfl
  | interrupt a =>
    have ha : (s.recv = true ∧ (s.aw a).isSome) ∧ s.killed.contains a = false := by simpa [St.can] using hc
    obtain ⟨y, hy⟩ := Option.isSome_iff_exists.mp ha.1.2
    dsimp only [St.interrupt] at hv ⊢
    simp only [hy] at hv ⊢
    have b' : Basic p { s with aw := upd s.aw a (some { y with ex := some .detached }) } := by
      refine ⟨b.1, b.2, b.3, b.4, b.5, ?_⟩
      intro a' w' e h1 h2
      simp only [upd_apply] at h1
      split at h1
      · cases h1; cases h2; exact ⟨rfl, by simp⟩
      · exact b.6 _ _ _ h1 h2
    have hd := (wake_calm b' hv).done
    have hrc := (wake_calm b' hv).recv
    by_cases hA : s.awaited = some a
    · have e : ({ s with aw := upd s.aw a (some { y with ex := some .detached }) } : St).wake =
          ({ s with aw := upd s.aw a (some { y with ex := some .detached }), awaited := none } : St).resumeAw a := by
        unfold St.wake; simp only [hA]
      have b'' : Basic p { s with aw := upd s.aw a (some { y with ex := some .detached }), awaited := none } :=
        ⟨b'.1, b'.2, b'.3, b'.4, b'.5, b'.6⟩
      have hnd : s.done = false := by
        cases hq : s.done with
        | false => rfl
        | true => have := n.2 ha.1.1 hq; rw [hA] at this; cases this
      rw [e] at hv hd hrc ⊢
      obtain ⟨f1, f2, f3, f4⟩ := resumeAw_facts b'' (w := { y with ex := some .detached }) (by simp) hv
      refine ⟨⟨fun _ => by rw [hd]; exact n.1 ha.1.1, fun _ _ => (resumeAw_awaited _ _).1⟩, fun _ x hx => ?_, fun h => absurd hA h.2.1⟩
      exact absurd (f2 (by simp) x hx) (r.busy hnd x)
    · have hne : ∀ c, s.awaited = some c → c ≠ a := by rintro c hc' rfl; exact hA hc'
      have w' : Wait { s with aw := upd s.aw a (some { y with ex := some .detached }) } :=
        ⟨fun c hc => by simpa [hne c hc] using w.1 c hc, w.2⟩
      have k := wake_woke b' w' hv
      have hx : s.awaited ≠ none → s.done = false ∧ s.exc = none := by
        intro h
        have hnd : s.done = false := by
          cases hq : s.done with
          | false => rfl
          | true => exact absurd (n.2 ha.1.1 hq) h
        refine ⟨hnd, ?_⟩
        cases hq : s.exc with
        | none => rfl
        | some e => have := b.3 ha.1.1 (by simp [hq]); rw [hnd] at this; cases this
      refine ⟨⟨fun _ => by rw [hd]; exact n.1 ha.1.1, fun _ _ => (wake_awaited _).1⟩, fun h x hx' => ?_, fun h => ?_⟩
      · have := k.no (fun k => h ⟨k.1, hA, k.2.2⟩) x hx'
        obtain ⟨r1, r2, r3⟩ := r x this
        exact ⟨hd.trans r1, k.result r2, k.exc r3⟩
      · exact ⟨k.yes ⟨h.1, (hx h.1).2, h.2.2⟩, hd.trans (hx h.1).1, hrc.trans ha.1.1⟩
  | get a =>
    dsimp only [St.get] at hv ⊢
    cases he : s.exc with
    | some x =>
      simp only [he] at hv ⊢
      refine ⟨⟨n.1, n.2⟩, fun _ c hx => ?_, fun h => absurd h id⟩
      simp only [St.give, List.mem_cons, Prod.mk.injEq, Got.err.injEq] at hx
      rcases hx with hx | hx
      · have := b.2 x he; rw [← hx.2] at this; cases this
      · have := (r c hx).2.2; rw [he] at this; cases this
    | none =>
      simp only [he] at hv ⊢
      cases hr : s.result with
      | none => simp [hr] at hv
      | some y =>
        simp only []
        refine ⟨⟨n.1, n.2⟩, fun _ c hx => ?_, fun h => absurd h id⟩
        simp only [St.give, List.mem_cons, Prod.mk.injEq, reduceCtorEq, and_false, false_or] at hx
        have := (r c hx).2.1; rw [hr] at this; cases this
  | drop => exact .same n r id rfl rfl rfl rfl (fun h => by cases h) (fun h => by
      simp only [St.drop]
      by_cases hr : s.recv = true
      · exact (n.2 hr h).symm
      · exact (w.2 (by simpa using hr)).symm) (fun h => by cases h)

theorem resumeAw_done (s : St) (a : Nat) : (s.resumeAw a).done = s.done := by
  unfold St.resumeAw St.takeResult St.give
  repeat' split
  all_goals rfl

theorem done_step (n : s.recv = true → s.done = p.ended) (hu : s.ub = false) {e : Ev} (hc : s.can e = true)
    (hv : (s.step e).ub = false) :
    (s.step e).recv = true → (s.step e).done = (p.step e).ended := by
  unfold St.step at hv ⊢
  rw [if_neg (by simp [hu, hc])] at hv ⊢
  have hput : ∀ v, (s.put v).done = s.done ∧ (s.put v).recv = s.recv := by
    intro v; unfold St.put
    repeat' split
    all_goals exact ⟨rfl, rfl⟩
  cases e with
  | initial =>
    dsimp only
    rw [(suspend_done _).1, (suspend_done _).2]
    split <;> exact n
  | yield v =>
    dsimp only at hv ⊢
    show _ → _ = ((p.out (.val v)).ended)
    rw [out_ended]
    split
    · split
      · rw [(hput v).1, (hput v).2]; exact n
      · rw [(suspend_done _).1, (suspend_done _).2, (hput v).1, (hput v).2]; exact n
    · rw [(suspend_done _).1, (suspend_done _).2]; exact n
  | ret v =>
    dsimp only at hv ⊢
    split
    · rename_i hr
      rw [if_pos hr] at hv
      split
      · rename_i hf
        rw [if_pos hf, hf] at hv; cases hv
      · unfold St.finish; rw [wake_done]; exact fun _ => rfl
    · rename_i hr
      intro h; exact absurd h hr
  | throw x =>
    dsimp only at hv ⊢
    split
    · unfold St.finish; rw [wake_done]; exact fun _ => rfl
    · rename_i hr
      intro h; exact absurd h hr
  | kill =>
    dsimp only [St.kill]
    split
    · exact fun _ => rfl
    · rename_i hr
      intro h; exact absurd h hr
  | run =>
    dsimp only
    split
    · rw [(bodyResume_fields s).2.1, (bodyResume_fields s).2.2.1]; exact n
    · exact n
  | await a v =>
    dsimp only [St.await]
    show _ → _ = p.ended
    have hb : ∀ t : St, t.bodyResume.done = t.done ∧ t.bodyResume.recv = t.recv := fun t =>
      ⟨(bodyResume_fields t).2.1, (bodyResume_fields t).2.2.1⟩
    split
    · rw [resumeAw_done, (resumeAw_awaited _ _).2]; exact n
    · split
      · rw [resumeAw_done, (resumeAw_awaited _ _).2]; exact n
      · split <;> split
        · rw [(hb _).1, (hb _).2]; exact n
        · exact n
        · rw [(hb _).1, (hb _).2]; exact n
        · exact n
  | interrupt a =>
    dsimp only [St.interrupt]
    split
    · exact n
    · rw [wake_done, (wake_awaited _).2]; exact n
  | get a =>
    dsimp only [St.get]
    split
    · exact n
    · split <;> exact n
  | drop => intro h; cases h

end Cobalt.Gen
