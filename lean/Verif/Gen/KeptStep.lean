import Verif.Gen.KeptLemmas
/-! What a generator gave and holds: one event. Lemmas for `Gen/KeptProps.lean`. -/
namespace Cobalt.Gen

open Prom (upd upd_apply)

variable {p : Sp} {s : St}

/-- The exception of the body, or its destruction, comes when no value is held; `get` is not called while an exception
is held. -/
def Fine (s : St) : Ev → Prop
  | .throw _ | .kill => s.recv = true → s.result = none
  | .get _ => s.exc = none
  | _ => True

instance (s : St) (e : Ev) : Decidable (Fine s e) := by
  cases e <;> unfold Fine <;> infer_instance

theorem Basic.sp (h : Basic p s) {q : Sp} (hq : q.dropped = p.dropped) : Basic q s :=
  ⟨h.1, h.2, h.3, h.4, hq.trans h.5, h.6⟩

theorem out_dropped (p : Sp) (g : Got) : (p.out g).dropped = p.dropped := by
  unfold Sp.out; split <;> rfl

theorem out_outs (p : Sp) (g : Got) : (p.out g).outs = p.outs ++ (if p.dropped then [] else [g]) := by
  unfold Sp.out; split <;> simp

/-- The body runs: it has not ended. -/
theorem Basic.busy (h : Basic p s) (hp : s.phase ≠ .gone) (hr : s.recv = true) : s.done = false ∧ s.exc = none := by
  have hd : s.done = false := by
    cases hd : s.done with
    | false => rfl
    | true => exact absurd (h.gone hr hd) hp
  refine ⟨hd, ?_⟩
  cases he : s.exc with
  | none => rfl
  | some e => have := h.excD hr (by simp [he]); rw [hd] at this; cases this

/-- What an event does to what was given and is held; `f`: the event is fine. -/
inductive Does (p : Sp) (s : St) (q : Sp) (t : St) (f : Prop) : Prop where
  | calm (hf : f) (ho : q.outs = p.outs) (ht : total t = total s)
      (hd : (s.recv = true → s.done = true) → t.recv = true → t.done = true)
  | adds (hf : f) (g : Got) (hr : s.recv = true) (hd : s.done = false) (ho : q.outs = p.outs ++ [g])
      (ht : total t = total s ++ [g])
  | over (hf : ¬f) (D : List Got) (v : Nat) (l : List Got) (e : Err) (hr : s.recv = true) (hd : s.done = false)
      (ho : q.outs = p.outs ++ [.err e]) (hs : total s = D ++ .val v :: l) (ht : total t = D ++ .err e :: .val v :: l)
      (hn : t.done = true)
  | again (hf : ¬f) (ho : q.outs = p.outs) (ht : (total t).length = (total s).length + 1)

/-- The receiver is as before. -/
theorem still {f : Prop} (hf : f) {q : Sp} {t : St} (h : Basic p s) (hr : s.recv = false) (e1 : t.result = s.result)
    (e2 : t.buffer = s.buffer) (e3 : t.exc = s.exc) (e4 : t.recv = s.recv) (e5 : t.aw = s.aw) (e6 : t.log = s.log)
    (ho : q.outs = p.outs) (hd : q.dropped = p.dropped) : Basic q t ∧ Does p s q t f := by
  refine ⟨⟨by rw [e1, e2]; exact h.1, by rw [e3]; exact h.2, by rw [e4, hr]; simp, by rw [e4, hr]; simp,
    by rw [hd, e4]; exact h.5, by rw [e5]; exact h.6⟩, .calm hf ho (by simp [total, held, e1, e2, e3, e6]) ?_⟩
  intro _ h; rw [e4, hr] at h; cases h

theorem Calm.does {f : Prop} (hf : f) {t : St} {q : Sp} (c : Calm p s t) (ho : q.outs = p.outs) (hq : q.dropped = p.dropped) :
    Basic q t ∧ Does p s q t f :=
  ⟨c.basic.sp hq, .calm hf ho c.total fun h1 h2 => by rw [c.done]; exact h1 (by rw [← c.recv]; exact h2)⟩

theorem can_running {e : Ev} (hp : s.can e = true) (he : e = .initial ∨ (∃ v, e = .yield v) ∨ (∃ v, e = .ret v) ∨ ∃ v, e = .throw v) :
    s.phase = .running := by
  rcases he with rfl | ⟨v, rfl⟩ | ⟨v, rfl⟩ | ⟨v, rfl⟩ <;> simpa [St.can] using hp

/-- The exception comes in front of the value. -/
theorem exc_total (s : St) (he : s.exc = none) (x : Err) (t : St) (h1 : t.log = s.log) (h2 : t.exc = some x)
    (h3 : t.result = s.result) (h4 : t.buffer = s.buffer) (hb : s.result = none → s.buffer = none) :
    (s.result = none → total t = total s ++ [.err x]) ∧ ∀ v, s.result = some v →
      ∃ D l, total s = D ++ .val v :: l ∧ total t = D ++ .err x :: .val v :: l := by
  constructor
  · intro hr
    simp [total, held, h1, h2, h3, h4, hr, hb hr, he, optErr, optVal]
  · intro v hr
    refine ⟨(s.log.reverse.map Prod.snd).filter ofBody, optVal s.buffer, ?_, ?_⟩
    · simp [total, held, hr, he, optErr, optVal]
    · simp [total, held, h1, h2, h3, h4, hr, optErr, optVal]

theorem step_does (h : Basic p s) (hu : s.ub = false) {e : Ev} (hc : s.can e = true) (hv : (s.step e).ub = false) :
    Basic (p.step e) (s.step e) ∧ Does p s (p.step e) (s.step e) (Fine s e) := by
  have hs : ∀ {α : Type} {x y : α}, (if (s.ub || !s.can e) = true then x else y) = y := by
    intro α x y; rw [if_neg (by simp [hu, hc])]
  have hdr : ∀ g, s.recv = true → (p.out g).outs = p.outs ++ [g] := by
    intro g hr; rw [out_outs, h.dropped, hr]; rfl
  have hdn : ∀ g, s.recv = false → (p.out g).outs = p.outs := by
    intro g hr; rw [out_outs, h.dropped, hr]; simp
  unfold St.step at hv ⊢
  rw [hs] at hv ⊢
  cases e with
  | initial =>
    have hp := can_running hc (.inl rfl)
    refine Calm.does trivial ?_ rfl rfl
    have hd : s.recv = true → s.done = false := fun hr => (h.busy (by simp [hp]) hr).1
    by_cases hr : s.recv = true
    · simp only [if_pos hr] at hv ⊢
      have h' : Basic p { s with lazy := true } := ⟨h.1, h.2, h.3, h.4, h.5, h.6⟩
      exact Calm.trans (t := { s with lazy := true }) ⟨h', rfl, rfl, rfl⟩ (suspend_calm h' hd hv)
    · simp only [if_neg hr] at hv ⊢
      exact suspend_calm h hd hv
  | yield v =>
    have hp := can_running hc (.inr (.inl ⟨v, rfl⟩))
    have hd : s.recv = true → s.done = false := fun hr => (h.busy (by simp [hp]) hr).1
    by_cases hr : s.recv = true
    · simp only [if_pos hr] at hv ⊢
      by_cases hub : (s.put v).ub = true
      · simp only [if_pos hub] at hv; rw [hub] at hv; cases hv
      · simp only [if_neg hub] at hv ⊢
        obtain ⟨a1, a2, a3, a4⟩ := put_total h v (by simpa using hub)
        have c := suspend_calm a1 (fun hr => by rw [a4]; exact hd (by rw [← a3]; exact hr)) hv
        exact ⟨c.basic.sp (out_dropped ..), .adds trivial (.val v) hr (hd hr) (hdr _ hr) (by rw [c.total, a2])⟩
    · simp only [if_neg hr] at hv ⊢
      exact Calm.does trivial (suspend_calm h hd hv) (hdn _ (by simpa using hr)) (out_dropped ..)
  | ret v =>
    have hp := can_running hc (.inr (.inr (.inl ⟨v, rfl⟩)))
    have hd : s.recv = true → s.done = false := fun hr => (h.busy (by simp [hp]) hr).1
    by_cases hr : s.recv = true
    · simp only [if_pos hr] at hv ⊢
      by_cases hub : (s.put v).ub = true
      · simp only [if_pos hub] at hv; rw [hub] at hv; cases hv
      · simp only [if_neg hub] at hv ⊢
        obtain ⟨a1, a2, a3, a4⟩ := put_total h v (by simpa using hub)
        obtain ⟨c1, c2, c3, c4⟩ := finish_calm a1 hv
        exact ⟨c1.sp (out_dropped ..), .adds trivial (.val v) hr (hd hr) (hdr _ hr) (by rw [c2, a2])⟩
    · simp only [if_neg hr] at hv ⊢
      have hr : s.recv = false := by simpa using hr
      exact still trivial h hr rfl rfl rfl rfl rfl rfl (hdn _ hr) (out_dropped ..)
  | throw x =>
    have hp := can_running hc (.inr (.inr (.inr ⟨x, rfl⟩)))
    by_cases hr : s.recv = true
    · obtain ⟨hd, he⟩ := h.busy (by simp [hp]) hr
      simp only [if_pos hr] at hv ⊢
      have h' : Basic p { s with exc := some (.user x), done := true, phase := .gone } :=
        ⟨h.1, fun e h => (by cases h; rfl), fun _ _ => rfl, fun _ _ => rfl, h.5, h.6⟩
      have hw : ({ s with exc := some (.user x), done := true, phase := .gone } : St).wake.ub = false := hv
      have c := wake_calm h' hw
      have ht := exc_total s he (.user x) { s with exc := some (.user x), done := true, phase := .gone } rfl rfl rfl rfl h.1
      refine ⟨c.basic.sp (out_dropped ..), ?_⟩
      rcases hres : s.result with _ | v
      · exact .adds (fun _ => hres) _ hr hd (hdr _ hr) (by rw [← hres]; exact c.total.trans (ht.1 hres))
      ·
        obtain ⟨D, l, e1, e2⟩ := ht.2 v hres
        exact .over (fun hf => by have := hf hr; rw [hres] at this; cases this) D v l _ hr hd (hdr _ hr) e1 (by rw [← hres]; exact c.total.trans e2) (by rw [← hres]; exact c.done)
    · simp only [if_neg hr] at hv ⊢
      have hr : s.recv = false := by simpa using hr
      exact still (fun h => by rw [hr] at h; cases h) h hr rfl rfl rfl rfl rfl rfl (hdn _ hr) (out_dropped ..)
  | kill =>
    have hp : s.phase ≠ .gone := by
      intro hp; simp [St.can, hp] at hc
    by_cases hr : s.recv = true
    · obtain ⟨hd, he⟩ := h.busy hp hr
      simp only [St.kill, if_pos hr, hd, he, and_self, if_true] at hv ⊢
      have ht := exc_total s he .unexpected
        { s with phase := .gone, exc := some .unexpected, done := true, awaited := none, killed := s.dead } rfl rfl rfl rfl h.1
      refine ⟨⟨h.1, fun e h => (by cases h; rfl), fun _ _ => rfl, fun _ _ => rfl, (out_dropped ..).trans h.5, h.6⟩, ?_⟩
      cases hres : s.result with
      | none =>
        refine .adds (fun _ => hres) _ hr hd (hdr _ hr) ?_
        rw [← ht.1 hres]; simp [total, held, hres]
      | some v =>
        obtain ⟨D, l, e1, e2⟩ := ht.2 v hres
        refine .over (fun hf => by have := hf hr; rw [hres] at this; cases this) D v l _ hr hd (hdr _ hr) e1 ?_ rfl
        rw [← e2]; simp [total, held, hres]
    · simp only [St.kill, if_neg hr] at hv ⊢
      have hr : s.recv = false := by simpa using hr
      exact still (fun h => by rw [hr] at h; cases h) h hr rfl rfl rfl rfl rfl rfl (hdn _ hr) (out_dropped ..)
  | run =>
    have hp : s.phase = .posted := by simpa [St.can] using hc
    by_cases hr : s.recv = true
    · simp only [if_pos hr] at hv ⊢
      exact Calm.does trivial (bodyResume_calm h (fun hr => (h.busy (by simp [hp]) hr).1) hv) rfl rfl
    · simp only [if_neg hr] at hv ⊢
      exact still trivial h (by simpa using hr) rfl rfl rfl rfl rfl rfl rfl rfl
  | await a v =>
    refine Calm.does trivial ?_ rfl rfl
    have aux : ∀ w : Aw, (∀ e, w.ex = some e → ofBody (.err e) = false ∧ e ≠ .returnedVoid) → ∀ t : St, t.aw = s.aw →
        ∀ a' w' e, upd t.aw a (some w) a' = some w' → w'.ex = some e → ofBody (.err e) = false ∧ e ≠ .returnedVoid := by
      intro w hw t ht a' w' e h1 h2
      rw [upd_apply] at h1
      split at h1
      · cases h1; exact hw _ h2
      · rw [ht] at h1; exact h.6 _ _ _ h1 h2
    unfold St.await at hv ⊢
    dsimp only at hv ⊢
    have h1 : Basic p { s with aw := upd s.aw a (some { push := v }) } :=
      ⟨h.1, h.2, h.3, h.4, h.5, aux _ (by simp) s rfl⟩
    split
    · rename_i hy
      rw [if_pos hy] at hv
      exact Calm.trans (t := { s with aw := upd s.aw a (some { push := v }) }) ⟨h1, rfl, rfl, rfl⟩ (resumeAw_calm h1 a hv)
    · rename_i hy
      rw [if_neg hy] at hv
      split
      · rename_i hz
        rw [if_pos hz] at hv
        have h2 : Basic p { s with aw := upd (upd s.aw a (some { push := v })) a (some { push := v, ex := some .alreadyAwaited }) } := by
          refine ⟨h.1, h.2, h.3, h.4, h.5, ?_⟩
          intro a' w' e h1 h2
          simp only [upd_apply] at h1
          split at h1
          · cases h1; cases h2; exact ⟨rfl, by simp⟩
          · exact h.6 _ _ _ h1 h2
        exact Calm.trans (t := _) ⟨h2, rfl, rfl, rfl⟩ (resumeAw_calm h2 a hv)
      · rename_i hz
        rw [if_neg hz] at hv
        have hnd : s.done = false := by
          simp only [St.ready, Bool.or_eq_true, not_or, Bool.not_eq_true] at hy
          exact hy.2
        split
        · rename_i hl
          simp only [if_pos hl] at hv
          have h2 : Basic p { s with awaited := some a, pushed := some v, aw := upd (upd s.aw a (some { push := v })) a (some { push := v, toPush := false }) } := by
            refine ⟨h.1, h.2, h.3, h.4, h.5, ?_⟩
            intro a' w' e h1 h2
            simp only [upd_apply] at h1
            split at h1
            · cases h1; cases h2
            · exact h.6 _ _ _ h1 h2
          by_cases hph : s.phase = .parked
          · simp only [if_pos hph] at hv ⊢
            exact Calm.trans (t := _) ⟨h2, rfl, rfl, rfl⟩ (bodyResume_calm h2 (fun _ => hnd) hv)
          · simp only [if_neg hph] at hv ⊢
            exact ⟨h2, rfl, rfl, rfl⟩
        · rename_i hl
          simp only [if_neg hl] at hv
          have h2 : Basic p { s with awaited := some a, aw := upd s.aw a (some { push := v }) } :=
            ⟨h.1, h.2, h.3, h.4, h.5, aux _ (by simp) s rfl⟩
          by_cases hph : s.phase = .parked
          · simp only [if_pos hph] at hv ⊢
            exact Calm.trans (t := _) ⟨h2, rfl, rfl, rfl⟩ (bodyResume_calm h2 (fun _ => hnd) hv)
          · simp only [if_neg hph] at hv ⊢
            exact ⟨h2, rfl, rfl, rfl⟩
  | interrupt a =>
    refine Calm.does trivial ?_ rfl rfl
    simp only [St.interrupt] at hv ⊢
    cases hw : s.aw a with
    | none => simp [hw] at hv
    | some w =>
      simp only [hw] at hv ⊢
      have h1 : Basic p { s with aw := upd s.aw a (some { w with ex := some .detached }) } := by
        refine ⟨h.1, h.2, h.3, h.4, h.5, ?_⟩
        intro a' w' e h1 h2
        simp only [upd_apply] at h1
        split at h1
        · cases h1; cases h2; exact ⟨rfl, by simp⟩
        · exact h.6 _ _ _ h1 h2
      exact Calm.trans (t := _) ⟨h1, rfl, rfl, rfl⟩ (wake_calm h1 hv)
  | get a =>
    simp only [St.get] at hv ⊢
    have aux : ∀ (t : St) (g : Got), t.aw = s.aw → ∀ a' w' e, (t.give a { push := 0, toPush := false } g).aw a' = some w' →
        w'.ex = some e → ofBody (.err e) = false ∧ e ≠ .returnedVoid := by
      intro t g ht a' w' e h1 h2
      simp only [St.give, upd_apply, ht] at h1
      split at h1
      · cases h1; cases h2
      · exact h.6 _ _ _ h1 h2
    cases he : s.exc with
    | some x =>
      simp only [he] at hv ⊢
      refine ⟨⟨h.1, h.2, h.3, h.4, h.5, aux _ _ rfl⟩, .again (by simp [Fine, he]) rfl ?_⟩
      rw [give_total, h.2 _ he]
      simp [total]; omega
    | none =>
      simp only [he] at hv ⊢
      cases hr : s.result with
      | none => simp [hr] at hv
      | some v =>
        simp only [hr] at hv ⊢
        refine ⟨⟨fun _ => rfl, fun e h => ?_, fun _ h => ?_, h.4, h.5, aux _ _ rfl⟩, .calm he rfl ?_ fun h1 h2 => h1 h2⟩
        · simp [St.give] at h
        · simp [St.give] at h
        · rw [give_total]
          simp [total, held, hr, he, optVal, optErr, ofBody]
  | drop =>
    refine ⟨⟨h.1, h.2, fun h => (by cases h), fun h => (by cases h), rfl, h.6⟩, .calm trivial rfl rfl fun _ h => by cases h⟩

end Cobalt.Gen
