import Verif.Prom.ForModel
import Verif.Prom.InvStep
/-! The invariant of a loop over a promise. -/
namespace Cobalt.Prom

variable {p : Sp} {s : St}

theorem resumeAw_apart {r b : Nat} {w : Aw} (hw : s.aw b = some w) (hr : w.self ≠ r) :
    (s.resumeAw b).recv r = s.recv r ∧ (∀ a, a ≠ b → (s.resumeAw b).aw a = s.aw a) ∧
    (s.resumeAw b).killed = s.killed := by
  unfold St.resumeAw
  rw [hw]
  have hr' : r ≠ w.self := fun h => hr h.symm
  dsimp only
  split
  · refine ⟨rfl, fun a ha => ?_, rfl⟩
    simp [ha]
  · split
    · exact ⟨rfl, fun _ _ => rfl, rfl⟩
    · split
      · exact ⟨rfl, fun _ _ => rfl, rfl⟩
      · refine ⟨by simp [hr'], fun a ha => ?_, rfl⟩
        simp [ha]

/-- Nothing happens to the promise at `r`, nor to who awaits it. -/
def Still (s s' : St) (r : Nat) (R : Rec) : Prop :=
  ∃ R', s'.recv r = some R' ∧ R'.taken = R.taken ∧ R'.awaited = R.awaited ∧
    ∀ a, R.awaited = some a → s'.aw a = s.aw a ∧ a ∉ s'.killed

theorem Still.of {s' : St} {r : Nat} {R : Rec} (h : Inv p s) (hR : s.recv r = some R) (h1 : s'.recv r = s.recv r)
    (h2 : ∀ a, R.awaited = some a → s'.aw a = s.aw a) (h3 : ∀ a, R.awaited = some a → a ∈ s'.killed → a ∈ s.killed) :
    Still s s' r R :=
  ⟨R, h1.trans hR, rfl, rfl, fun a ha => ⟨h2 a ha, fun hk => (h.awaited r R a hR ha).2 (h3 a ha hk)⟩⟩

open For (apart)

theorem still {e : Ev} {r : Nat} {R : Rec} (h : Inv p s) (hc : s.can e = true) (ht : Tidy p s e) (hr : apart r e = true)
    (hR : s.recv r = some R) (hn : ∀ c, p.holds r = .coro c → (∀ o, e ≠ .finish c o) ∧ e ≠ .kill c)
    (hi : ∀ a, R.awaited = some a → e ≠ .interrupt a) : Still s (s.step e) r R := by
  have hself : ∀ a, R.awaited = some a → s.aw a = some { self := r, ex := none, got := none } := fun a ha =>
    (h.awaited r R a hR ha).1
  have attached : ∀ r' b, Still s (s.setAttached r' b) r R := by
    intro r' b
    unfold St.setAttached
    split
    · exact Still.of h hR rfl (fun _ _ => rfl) fun _ _ hk => hk
    · rename_i Q hQ
      cases Nat.decEq r r' with
      | isFalse hne => exact Still.of h hR (by simp [hne]) (fun _ _ => rfl) fun _ _ hk => hk
      | isTrue he =>
        subst he
        rw [hR] at hQ
        injection hQ with hQ
        subst hQ
        exact ⟨{ R with attached := b }, by simp, rfl, rfl, fun a ha => ⟨rfl, (h.awaited r R a hR ha).2⟩⟩
  have cancelled : ∀ t : St, t.recv = s.recv → t.aw = s.aw → t.killed = s.killed → ∀ r', Still s (t.cancel r') r R := by
    intro t h1 h2 h3 r'
    have hex : (t.cancel r').recv = s.recv ∧ (t.cancel r').aw = s.aw ∧ (t.cancel r').killed = s.killed := by
      unfold St.cancel
      repeat' split
      all_goals exact ⟨h1, h2, h3⟩
    exact Still.of h hR (by rw [hex.1]) (fun a _ => by rw [hex.2.1]) fun a _ hk => by rw [hex.2.2] at hk; exact hk
  unfold St.step
  rw [if_neg (by simp [h.ub, hc])]
  cases e with
  | create c r' =>
    have hne : r ≠ r' := by rintro rfl; simp [St.can, hR] at hc
    exact Still.of h hR (by simp [hne]) (fun _ _ => rfl) fun _ _ hk => hk
  | noop r' v =>
    have hne : r ≠ r' := by rintro rfl; simp [St.can, hR] at hc
    exact Still.of h hR (by simp [hne]) (fun _ _ => rfl) fun _ _ hk => hk
  | finish c o =>
    dsimp only
    cases hf : s.frame c with
    | none => simp [St.can, hf] at hc
    | some f =>
      obtain ⟨-, -, -, hfr⟩ := h.frame c f hf
      unfold St.finish
      simp only [hf]
      cases hfv : f.receiver with
      | none => cases o <;> exact Still.of h hR rfl (fun _ _ => rfl) fun _ _ hk => hk
      | some r' =>
        obtain ⟨hh, hsome⟩ := hfr r' hfv
        have hne : r' ≠ r := by rintro rfl; exact (hn c hh).1 o rfl
        cases hR' : s.recv r' with
        | none => simp [hR'] at hsome
        | some Q =>
          have key : ∀ Q' : Rec, Q'.awaited = Q.awaited → Still s (match Q'.awaited with
              | none => { s with frame := upd s.frame c none, recv := upd s.recv r' (some { Q' with awaited := none }) }
              | some a => St.resumeAw { s with frame := upd s.frame c none, recv := upd s.recv r' (some { Q' with awaited := none }) } a) r R := by
            intro Q' hQ
            rw [hQ]
            cases hA : Q.awaited with
            | none => exact Still.of h hR (by simp [hne.symm]) (fun _ _ => rfl) fun _ _ hk => hk
            | some b =>
              have hb := (h.awaited r' Q b hR' hA).1
              obtain ⟨k1, k2, k3⟩ := resumeAw_apart (s := { s with frame := upd s.frame c none, recv := upd s.recv r' (some { Q' with awaited := none }) }) (r := r) hb hne
              refine Still.of h hR ?_ (fun a ha => ?_) fun a ha hk => ?_
              · rw [k1]; simp [hne.symm]
              · refine k2 a ?_
                rintro rfl
                have := hself a ha
                rw [hb] at this
                simp at this
                exact hne this
              · rw [k3] at hk; exact hk
          dsimp only
          rw [hR']
          cases o with
          | val v => exact key { Q with result := some (some v), done := true } rfl
          | exc x => exact key { Q with exc := some (.user x), done := true } rfl
  | kill c =>
    dsimp only
    cases hf : s.frame c with
    | none => simp [St.can, hf] at hc
    | some f =>
      obtain ⟨-, -, -, hfr⟩ := h.frame c f hf
      unfold St.kill
      simp only [hf]
      cases hfv : f.receiver with
      | none => exact Still.of h hR rfl (fun _ _ => rfl) fun _ _ hk => hk
      | some r' =>
        obtain ⟨hh, hsome⟩ := hfr r' hfv
        have hne : r' ≠ r := by rintro rfl; exact (hn c hh).2 rfl
        cases hR' : s.recv r' with
        | none => simp [hR'] at hsome
        | some Q =>
          simp only [hR']
          refine Still.of h hR (by simp [hne.symm]) (fun _ _ => rfl) fun a ha hk => ?_
          dsimp only at hk
          cases hA : Q.awaited with
          | none => simpa [hA] using hk
          | some b =>
            simp only [hA, List.mem_cons] at hk
            rcases hk with rfl | hk
            · have h1 := hself a ha
              rw [(h.awaited r' Q a hR' hA).1] at h1
              simp at h1
              exact absurd h1 hne
            · exact hk
  | await b r' =>
    have hne : r' ≠ r := by simpa [apart] using hr
    have hb : ∀ a, R.awaited = some a → a ≠ b := by
      rintro a ha rfl
      simp [St.can, hself a ha] at hc
    dsimp only
    unfold St.await
    cases hR' : s.recv r' with
    | none => simp [St.can, hR'] at hc
    | some Q =>
      dsimp only
      split
      · obtain ⟨k1, k2, k3⟩ := resumeAw_apart (s := { s with aw := upd s.aw b (some { self := r' }) }) (r := r) (b := b)
          (w := { self := r' }) (by simp) hne
        refine Still.of h hR k1 (fun a ha => ?_) fun a ha hk => ?_
        · rw [k2 a (hb a ha)]; simp [hb a ha]
        · rw [k3] at hk; exact hk
      · split
        · obtain ⟨k1, k2, k3⟩ := resumeAw_apart (s := { s with aw := upd s.aw b (some { self := r', ex := some .alreadyAwaited }) })
            (r := r) (b := b) (w := { self := r', ex := some .alreadyAwaited }) (by simp) hne
          refine Still.of h hR k1 (fun a ha => ?_) fun a ha hk => ?_
          · rw [k2 a (hb a ha)]; simp [hb a ha]
          · rw [k3] at hk; exact hk
        · refine Still.of h hR (by simp [hne.symm]) (fun a ha => ?_) fun _ _ hk => hk
          simp [hb a ha]
  | interrupt b =>
    dsimp only
    unfold St.interrupt
    cases hw : s.aw b with
    | none => simp [St.can, hw] at hc
    | some w =>
      cases hQ : s.recv w.self with
      | none => simp [St.can, hw, hQ] at hc
      | some Q =>
        have hb : ∀ a, R.awaited = some a → a ≠ b := fun a ha hx => hi a ha (by rw [hx])
        dsimp only
        rw [hQ]
        dsimp only
        cases hA : Q.awaited with
        | none =>
          refine Still.of h hR rfl (fun a ha => ?_) fun _ _ hk => hk
          simp [hb a ha]
        | some b' =>
          have hbb := ht w Q b' hw hQ hA
          subst hbb
          have hne : w.self ≠ r := by
            intro hx
            rw [hx, hR] at hQ
            injection hQ with hQ
            subst hQ
            exact hb b' hA rfl
          obtain ⟨k1, k2, k3⟩ := resumeAw_apart (s := { s with
            aw := upd s.aw b' (some { w with ex := some .detached })
            recv := upd s.recv w.self (some { Q with awaited := none }) }) (r := r) (b := b')
            (w := { w with ex := some .detached }) (by simp) hne
          refine Still.of h hR ?_ (fun a ha => ?_) fun a ha hk => ?_
          · rw [k1]; simp [hne.symm]
          · rw [k2 a (hb a ha)]; simp [hb a ha]
          · rw [k3] at hk; exact hk
  | moveC r1 r2 =>
    have hne : r1 ≠ r := by simpa [apart] using hr
    have hne2 : r2 ≠ r := by rintro rfl; simp [St.can, hR] at hc
    have hex : (s.moveConstruct r1 r2).recv r = s.recv r ∧ (s.moveConstruct r1 r2).aw = s.aw ∧
        (s.moveConstruct r1 r2).killed = s.killed := by
      unfold St.moveConstruct
      split
      · exact ⟨rfl, rfl, rfl⟩
      · dsimp only
        split
        · split
          · exact ⟨rfl, rfl, rfl⟩
          · split
            · exact ⟨rfl, rfl, rfl⟩
            · exact ⟨by simp [hne.symm, hne2.symm], rfl, rfl⟩
        · exact ⟨by simp [hne.symm, hne2.symm], rfl, rfl⟩
    exact Still.of h hR hex.1 (fun a _ => by rw [hex.2.1]) fun a _ hk => by rw [hex.2.2] at hk; exact hk
  | moveA r1 r2 =>
    have hne : r1 ≠ r ∧ r2 ≠ r := by simpa [apart] using hr
    have hu : ∀ s : St, (s.unlink r1).recv = s.recv ∧ (s.unlink r1).aw = s.aw ∧ (s.unlink r1).killed = s.killed := by
      intro s
      unfold St.unlink
      repeat' split
      all_goals exact ⟨rfl, rfl, rfl⟩
    have hex : (St.moveAssign { s with leaving := upd s.leaving r1 false } r1 r2).recv r = s.recv r ∧
        (St.moveAssign { s with leaving := upd s.leaving r1 false } r1 r2).aw = s.aw ∧
        (St.moveAssign { s with leaving := upd s.leaving r1 false } r1 r2).killed = s.killed := by
      obtain ⟨u1, u2, u3⟩ := hu { s with leaving := upd s.leaving r1 false }
      unfold St.moveAssign
      generalize St.unlink { s with leaving := upd s.leaving r1 false } r1 = t at *
      dsimp only
      split
      · exact ⟨by rw [u1], u2, u3⟩
      · split
        · rename_i old Q ho hQ
          have : old.awaited = none := ht.1 old (by rw [← ho, u1])
          rw [this]
          dsimp only
          split
          · split
            · exact ⟨by rw [u1], u2, u3⟩
            · split
              · exact ⟨by rw [u1], u2, u3⟩
              · exact ⟨by simp [hne.1.symm, hne.2.symm, u1], u2, u3⟩
          · exact ⟨by simp [hne.1.symm, hne.2.symm, u1], u2, u3⟩
        · exact ⟨by rw [u1], u2, u3⟩
    exact Still.of h hR hex.1 (fun a _ => by rw [hex.2.1]) fun a _ hk => by rw [hex.2.2] at hk; exact hk
  | detach r' => exact attached r' false
  | attach r' => exact attached r' true
  | cancel r' => exact cancelled s rfl rfl rfl r'
  | leave r' =>
    dsimp only
    unfold St.leave
    split
    · exact Still.of h hR rfl (fun _ _ => rfl) fun _ _ hk => hk
    · split
      · exact cancelled { s with leaving := upd s.leaving r' true } rfl rfl rfl r'
      · exact Still.of h hR rfl (fun _ _ => rfl) fun _ _ hk => hk
  | drop r' =>
    have hne : r' ≠ r := by simpa [apart] using hr
    have hex : (St.destroyRec { s with leaving := upd s.leaving r' false } r').recv r = s.recv r ∧
        (St.destroyRec { s with leaving := upd s.leaving r' false } r').aw = s.aw ∧
        (St.destroyRec { s with leaving := upd s.leaving r' false } r').killed = s.killed := by
      unfold St.destroyRec
      split
      · exact ⟨rfl, rfl, rfl⟩
      · rename_i Q hQ
        have : Q.awaited = none := ht.1 Q hQ
        rw [this]
        dsimp only
        split
        · exact ⟨by simp [hne.symm], rfl, rfl⟩
        · split
          · exact ⟨rfl, rfl, rfl⟩
          · split
            · exact ⟨rfl, rfl, rfl⟩
            · exact ⟨by simp [hne.symm], rfl, rfl⟩
    exact Still.of h hR hex.1 (fun a _ => by rw [hex.2.1]) fun a _ hk => by rw [hex.2.2] at hk; exact hk
  | get r' =>
    have hne : r' ≠ r := by simpa [apart] using hr
    dsimp only
    split
    · exact Still.of h hR rfl (fun _ _ => rfl) fun _ _ hk => hk
    · split
      · split
        · exact Still.of h hR rfl (fun _ _ => rfl) fun _ _ hk => hk
        · exact Still.of h hR (by simp [hne.symm]) (fun _ _ => rfl) fun _ _ hk => hk
      · exact Still.of h hR rfl (fun _ _ => rfl) fun _ _ hk => hk

namespace For

structure LI (r : Nat) (H : Holds) (hist : List Ev) (p : Sp) (l : St) : Prop where
  inv : ∃ t, Inv { p with target := t } l.s
  holds : p.holds r = H
  recv : ∃ R, l.s.recv r = some R ∧
    (∀ a, l.phase = .waiting a → R.awaited = some a ∧ l.seen = [] ∧ .turn a ∈ hist) ∧
    ((∀ a, l.phase ≠ .waiting a) → R.awaited = none) ∧
    (l.phase = .head → l.seen = [] → R.taken = false) ∧
    (l.seen ≠ [] → ∃ v, l.seen = [some v] ∧ outcome p H = some (.out (.val v)) ∧ R.taken = true)
  finished : l.phase = .finished → l.seen ≠ []
  thrown : ∀ e, l.phase = .thrown e → l.seen = [] ∧ (e = .detached ∧ Interrupted hist ∨
    (∃ x, outcome p H = some (.out (.exc x)) ∧ e = .user x) ∨ outcome p H = some .killed ∧ e = .unexpected)
  destroyed : l.phase = .destroyed → l.seen = [] ∧ outcome p H = some .killed

variable {r : Nat} {H : Holds} {hist : List Ev} {l : St}

theorem Interrupted.mono {e : Ev} (h : Interrupted hist) : Interrupted (hist ++ [e]) := by
  obtain ⟨a, h1, h2⟩ := h
  exact ⟨a, List.mem_append_left _ h1, List.mem_append_left _ h2⟩

/-- Something happened that does not concern the loop. -/
theorem LI.quiet (h : LI r H hist p l) {e : Ev} {p' : Sp} {s' : Prom.St} {R : Rec}
    (hi' : ∃ t, Inv { p' with target := t } s') (hR : l.s.recv r = some R) (hs : Still l.s s' r R)
    (hh : p'.holds r = p.holds r) (ho : ∀ e, outcome p H = some e → outcome p' H = some e) :
    LI r H (hist ++ [e]) p' { l with s := s' }.advance := by
  obtain ⟨t, hi⟩ := h.inv
  obtain ⟨R', hR', ht, hA, hw⟩ := hs
  obtain ⟨R0, hR0, r1, r2, r3, r4⟩ := h.recv
  rw [hR] at hR0
  injection hR0 with hR0
  subst hR0
  have key : ({ l with s := s' } : St).advance = { l with s := s' } := by
    unfold St.advance
    split
    · rename_i a hx
      have ha := (r1 a hx).1
      obtain ⟨h1, h2⟩ := hw a ha
      have h3 := (hi.awaited r R a hR ha).1
      simp [h1, h2, h3]
    · rfl
  rw [key]
  refine ⟨hi', hh.trans h.holds, ⟨R', hR', fun a hx => ?_, fun hx => hA.trans (r2 hx), fun h1 h2 => ht.trans (r3 h1 h2),
    fun hx => ?_⟩, h.finished, fun e' hx => ?_, fun hx => ?_⟩
  · obtain ⟨h1, h2, h3⟩ := r1 a hx
    exact ⟨hA.trans h1, h2, List.mem_append_left _ h3⟩
  · obtain ⟨v, h1, h2, h3⟩ := r4 hx
    exact ⟨v, h1, ho _ h2, ht.trans h3⟩
  · obtain ⟨h1, h2⟩ := h.thrown e' hx
    refine ⟨h1, ?_⟩
    rcases h2 with ⟨h2, h3⟩ | ⟨x, h2, h3⟩ | ⟨h2, h3⟩
    · exact .inl ⟨h2, h3.mono⟩
    · exact .inr (.inl ⟨x, ho _ h2, h3⟩)
    · exact .inr (.inr ⟨ho _ h2, h3⟩)
  · exact ⟨(h.destroyed hx).1, ho _ (h.destroyed hx).2⟩

theorem LI.other (h : LI r H hist p l) (hH : proper H = true) {e : Prom.Ev} (hc : l.s.can e = true) (ht : Tidy p l.s e)
    (hr : apart r e = true) : LI r H (hist ++ [.other e]) (p.step e) { l with s := l.s.step e }.advance := by
  obtain ⟨t, hi⟩ := h.inv
  obtain ⟨R, hR, r1, r2, r3, r4⟩ := h.recv
  have ht' : Tidy { p with target := t } l.s e := by cases e <;> exact ht
  have hi' := hi.step hc ht'
  have hp : ∃ t', Inv { p.step e with target := t' } (l.s.step e) := by
    refine ⟨(Sp.step { p with target := t } e).target, ?_⟩
    have : ({ p.step e with target := (Sp.step { p with target := t } e).target } : Sp) = Sp.step { p with target := t } e := by
      cases e <;> rfl
    rw [this]
    exact hi'
  have hhold : (p.step e).holds r = p.holds r := by
    cases e with
    | create c r' =>
      have hne : r ≠ r' := by rintro rfl; simp [Prom.St.can, hR] at hc
      simp [Sp.step, hne]
    | noop r' v =>
      have hne : r ≠ r' := by rintro rfl; simp [Prom.St.can, hR] at hc
      simp [Sp.step, hne]
    | moveC r1 r2 =>
      have hne : r ≠ r2 := by rintro rfl; simp [Prom.St.can, hR] at hc
      have hne' : r ≠ r1 := by rintro rfl; simp [apart] at hr
      simp [Sp.step, hne, hne']
    | moveA r1 r2 =>
      have hne : r ≠ r1 ∧ r ≠ r2 := by
        simp only [apart, bne_iff_ne, ne_eq, Bool.and_eq_true] at hr
        exact ⟨fun h => hr.1 h.symm, fun h => hr.2 h.symm⟩
      simp [Sp.step, hne.1, hne.2]
    | drop r' =>
      have hne : r ≠ r' := by rintro rfl; simp [apart] at hr
      simp [Sp.step, hne]
    | _ => rfl
  have hends : ∀ c, p.holds r = .coro c → (∃ o, e = .finish c o) ∨ e = .kill c → p.ended c = none ∧ R.done = false ∧
      R.exc = none ∧ R.taken = false ∧ l.s.frame c = some { receiver := some r, stuck := false } := by
    intro c hh he
    have hfit := hi.fit r R hR
    have hh' : ({ p with target := t } : Sp).holds r = .coro c := hh
    rw [hh'] at hfit
    obtain ⟨-, hfit⟩ := hfit
    have hn : p.ended c = none := by
      have : ∃ f, l.s.frame c = some f ∧ f.stuck = false := by
        rcases he with ⟨o, rfl⟩ | rfl <;>
        · cases hf : l.s.frame c with
          | none => simp [Prom.St.can, hf] at hc
          | some f => exact ⟨f, rfl, by simpa [Prom.St.can, hf] using hc⟩
      obtain ⟨f, hf, hs⟩ := this
      exact (hi.frame c f hf).2.2.1 hs
    have hn' : ({ p with target := t } : Sp).ended c = none := hn
    rw [hn'] at hfit
    exact ⟨hn, hfit.1, hfit.2.1, hfit.2.2.1, hfit.2.2.2.2⟩
  have who : ∀ a, R.awaited = some a → l.phase = .waiting a := by
    intro a ha
    cases hx : l.phase with
    | waiting b => have := (r1 b hx).1; simp_all
    | _ => have := r2 (by simp [hx]); simp_all
  cases Classical.em (∃ c o, p.holds r = .coro c ∧ e = .finish c o) with
  | inl hx =>
    obtain ⟨c, o, hh, rfl⟩ := hx
    obtain ⟨hn, hd, hexc, htk, hf⟩ := hends c hh (.inl ⟨o, rfl⟩)
    have hHc : H = .coro c := h.holds.symm.trans hh
    have hout : outcome p H = none := by simp [outcome, hHc, hn]
    have hout' : outcome (p.step (.finish c o)) H = some (.out o) := by simp [outcome, hHc, Sp.step]
    have hseen : l.seen = [] := by
      cases hx : l.seen with
      | nil => rfl
      | cons y ys => obtain ⟨v, -, h2, -⟩ := r4 (by simp [hx]); rw [hout] at h2; simp at h2
    have hst : l.s.step (.finish c o) = Prom.St.finish l.s c o := by
      unfold Prom.St.step
      rw [if_neg (by simp [hi.ub, hc])]
    rw [hst] at hp ⊢
    cases hA : R.awaited with
    | none =>
      have hnw : ∀ a, l.phase ≠ .waiting a := fun a hx => by have := (r1 a hx).1; simp_all
      have e1 : ∀ s', ({ l with s := s' } : St).advance = { l with s := s' } := by
        intro s'
        unfold St.advance
        split
        · rename_i a hx; exact absurd hx (hnw a)
        · rfl
      rw [e1]
      refine ⟨hp, hhold.trans h.holds, ?_, h.finished, fun e' hx => ?_, fun hx => ?_⟩
      · cases o with
        | val v =>
          refine ⟨{ R with result := some (some v), done := true, awaited := none }, ?_, fun a hx => absurd hx (hnw a),
            fun _ => rfl, fun _ _ => htk, fun hx => absurd hseen hx⟩
          simp [Prom.St.finish, hf, hR, hA]
        | exc x =>
          refine ⟨{ R with exc := some (.user x), done := true, awaited := none }, ?_, fun a hx => absurd hx (hnw a),
            fun _ => rfl, fun _ _ => htk, fun hx => absurd hseen hx⟩
          simp [Prom.St.finish, hf, hR, hA]
      · obtain ⟨h1, h2⟩ := h.thrown e' hx
        refine ⟨h1, ?_⟩
        rcases h2 with ⟨h2, h3⟩ | ⟨x, h2, h3⟩ | ⟨h2, h3⟩
        · exact .inl ⟨h2, h3.mono⟩
        · rw [hout] at h2; simp at h2
        · rw [hout] at h2; simp at h2
      · have := (h.destroyed hx).2; rw [hout] at this; simp at this
    | some a =>
      have hwt := who a hA
      obtain ⟨hw, hk⟩ := hi.awaited r R a hR hA
      cases o with
      | val v =>
        have e1 : ({ l with s := Prom.St.finish l.s c (.val v) } : St).advance =
            { l with s := Prom.St.finish l.s c (.val v), phase := .head, seen := [some v] } := by
          unfold St.advance
          simp [hwt, Prom.St.finish, hf, hR, hA, Prom.St.resumeAw, hw, Prom.St.getResult, hexc, hk, hseen]
        rw [e1]
        refine ⟨hp, hhold.trans h.holds, ?_, by simp, by simp, by simp⟩
        refine ⟨{ R with result := some none, done := true, awaited := none, taken := true }, ?_, by simp, by simp, by simp,
          fun _ => ⟨v, rfl, hout', rfl⟩⟩
        simp [Prom.St.finish, hf, hR, hA, Prom.St.resumeAw, hw, Prom.St.getResult, hexc]
      | exc x =>
        have e1 : ({ l with s := Prom.St.finish l.s c (.exc x) } : St).advance =
            { l with s := Prom.St.finish l.s c (.exc x), phase := .thrown (.user x) } := by
          unfold St.advance
          simp [hwt, Prom.St.finish, hf, hR, hA, Prom.St.resumeAw, hw, Prom.St.getResult, hk]
        rw [e1]
        refine ⟨hp, hhold.trans h.holds, ?_, by simp, fun e' hx => ?_, by simp⟩
        · refine ⟨{ R with exc := some (.user x), done := true, awaited := none, taken := true }, ?_, by simp, by simp,
            by simp, fun hx => absurd hseen hx⟩
          simp [Prom.St.finish, hf, hR, hA, Prom.St.resumeAw, hw, Prom.St.getResult]
        · simp only [Phase.thrown.injEq] at hx
          exact ⟨hseen, .inr (.inl ⟨x, hout', hx.symm⟩)⟩
  | inr hnf =>
  cases Classical.em (∃ c, p.holds r = .coro c ∧ e = .kill c) with
  | inl hx =>
    obtain ⟨c, hh, rfl⟩ := hx
    obtain ⟨hn, hd, hexc, htk, hf⟩ := hends c hh (.inr rfl)
    have hHc : H = .coro c := h.holds.symm.trans hh
    have hout : outcome p H = none := by simp [outcome, hHc, hn]
    have hout' : outcome (p.step (.kill c)) H = some .killed := by simp [outcome, hHc, Sp.step]
    have hseen : l.seen = [] := by
      cases hx : l.seen with
      | nil => rfl
      | cons y ys => obtain ⟨v, -, h2, -⟩ := r4 (by simp [hx]); rw [hout] at h2; simp at h2
    have hst : l.s.step (.kill c) = Prom.St.kill l.s c := by
      unfold Prom.St.step
      rw [if_neg (by simp [hi.ub, hc])]
    rw [hst] at hp ⊢
    have hrec : (Prom.St.kill l.s c).recv r = some { R with exc := some .unexpected, done := true, awaited := none } := by
      simp [Prom.St.kill, hf, hR, hd, hexc]
    cases hA : R.awaited with
    | none =>
      have hnw : ∀ a, l.phase ≠ .waiting a := fun a hx => by have := (r1 a hx).1; simp_all
      have e1 : ∀ s', ({ l with s := s' } : St).advance = { l with s := s' } := by
        intro s'
        unfold St.advance
        split
        · rename_i a hx; exact absurd hx (hnw a)
        · rfl
      rw [e1]
      refine ⟨hp, hhold.trans h.holds, ⟨_, hrec, fun a hx => absurd hx (hnw a),
            fun _ => rfl, fun _ _ => htk, fun hx => absurd hseen hx⟩, h.finished, fun e' hx => ?_, fun hx => ?_⟩
      · obtain ⟨h1, h2⟩ := h.thrown e' hx
        refine ⟨h1, ?_⟩
        rcases h2 with ⟨h2, h3⟩ | ⟨x, h2, h3⟩ | ⟨h2, h3⟩
        · exact .inl ⟨h2, h3.mono⟩
        · rw [hout] at h2; simp at h2
        · rw [hout] at h2; simp at h2
      · have := (h.destroyed hx).2; rw [hout] at this; simp at this
    | some a =>
      have hwt := who a hA
      have e1 : ({ l with s := Prom.St.kill l.s c } : St).advance = { l with s := Prom.St.kill l.s c, phase := .destroyed } := by
        unfold St.advance
        simp [hwt, Prom.St.kill, hf, hR, hA]
      rw [e1]
      exact ⟨hp, hhold.trans h.holds, ⟨_, hrec, by simp, by simp, by simp, fun hx => absurd hseen hx⟩, by simp, by simp,
        fun _ => ⟨hseen, hout'⟩⟩
  | inr hnk =>
  cases Classical.em (∃ a, R.awaited = some a ∧ e = .interrupt a) with
  | inl hx =>
    obtain ⟨a, hA, rfl⟩ := hx
    have hwt := who a hA
    obtain ⟨hw, hk⟩ := hi.awaited r R a hR hA
    obtain ⟨-, hseen, htu⟩ := r1 a hwt
    have hst : l.s.step (.interrupt a) = Prom.St.interrupt l.s a := by
      unfold Prom.St.step
      rw [if_neg (by simp [hi.ub, hc])]
    rw [hst] at hp ⊢
    have e1 : ({ l with s := Prom.St.interrupt l.s a } : St).advance =
        { l with s := Prom.St.interrupt l.s a, phase := .thrown .detached } := by
      unfold St.advance
      simp [hwt, Prom.St.interrupt, hR, hA, Prom.St.resumeAw, hw, hk]
    rw [e1]
    refine ⟨hp, hhold.trans h.holds, ⟨{ R with awaited := none }, ?_, by simp, by simp, by simp,
      fun hx => absurd hseen hx⟩, by simp, fun e' hx => ?_, by simp⟩
    · simp [Prom.St.interrupt, hR, hA, Prom.St.resumeAw, hw]
    · simp only [Phase.thrown.injEq] at hx
      exact ⟨hseen, .inl ⟨hx.symm, a, List.mem_append_left _ htu, by simp⟩⟩
  | inr hni =>
    refine h.quiet hp hR (still hi hc ht' hr hR ?_ ?_) hhold ?_
    · intro c hh
      exact ⟨fun o he => hnf ⟨c, o, hh, he⟩, fun he => hnk ⟨c, hh, he⟩⟩
    · intro a ha he
      exact hni ⟨a, ha, he⟩
    · intro x ho
      cases hHc : H with
      | coro c =>
        rw [hHc] at ho
        have hh : p.holds r = .coro c := h.holds.trans hHc
        simp only [outcome] at ho ⊢
        cases e <;> simp only [Sp.step] <;> try exact ho
        · rename_i c' o
          have : c ≠ c' := by rintro rfl; exact hnf ⟨c, o, hh, rfl⟩
          simpa [this] using ho
        · rename_i c'
          have : c ≠ c' := by rintro rfl; exact hnk ⟨c, hh, rfl⟩
          simpa [this] using ho
      | ready v => rw [hHc] at ho; exact ho
      | _ => rw [hHc] at hH; simp [proper] at hH

theorem LI.turn (h : LI r H hist p l) (hH : proper H = true) {a : Nat} (hph : l.phase = .head)
    (hc : l.s.can (.await a r) = true) : LI r H (hist ++ [.turn a]) p (l.turn r a) := by
  obtain ⟨t, hi⟩ := h.inv
  obtain ⟨R, hR, r1, r2, r3, r4⟩ := h.recv
  have hA := r2 (by simp [hph])
  have ht : Tidy { p with target := t } l.s (.await a r) := by
    have := h.holds
    refine ⟨fun hx => ?_, fun c hx => ?_⟩
    all_goals
      have hx : p.holds r = _ := hx
      rw [this] at hx
      rw [hx] at hH
      simp [proper] at hH
  have hi' := hi.step hc ht
  have hp : ∃ t', Inv { p with target := t' } (l.s.step (.await a r)) := ⟨_, hi'⟩
  have hna : l.s.aw a = none := by
    simp only [Prom.St.can, Bool.and_eq_true, Option.isNone_iff_eq_none] at hc
    exact hc.1
  have hk : a ∉ l.s.killed := fun hx => by
    obtain ⟨w, h1, -⟩ := hi.killed a hx
    rw [hna] at h1; simp at h1
  have hst : l.s.step (.await a r) = Prom.St.await l.s a r := by
    unfold Prom.St.step
    rw [if_neg (by simp [hi.ub, hc])]
  rw [hst] at hp
  have hfit := hi.fit r R hR
  have hh : ({ p with target := t } : Sp).holds r = H := h.holds
  rw [hh] at hfit
  have hval : ∀ v, outcome p H = some (.out (.val v)) → R.done = true ∧ R.exc = none ∧ R.result = some (if R.taken then none else some v) := by
    intro v ho
    cases hHc : H with
    | coro c =>
      rw [hHc] at hfit ho
      obtain ⟨-, hfit⟩ := hfit
      have : ({ p with target := t } : Sp).ended c = some (.out (.val v)) := ho
      rw [this] at hfit
      exact ⟨hfit.1, hfit.2.2.1, hfit.2.2.2⟩
    | ready u =>
      rw [hHc] at hfit ho
      simp only [outcome, Option.some.injEq, End.out.injEq, Out.val.injEq] at ho
      subst ho
      exact ⟨hfit.1, hfit.2.2.1, hfit.2.2.2.2⟩
    | _ => rw [hHc] at ho; simp [outcome] at ho
  unfold St.turn
  split
  · rename_i hb
    simp only [St.test, hR] at hb
    have hseen : l.seen = [] := by
      cases hx : l.seen with
      | nil => rfl
      | cons y ys =>
        obtain ⟨v, -, h2, h3⟩ := r4 (by simp [hx])
        simp [Rec.toBool, (hval v h2).1, h3] at hb
    have htk := r3 hph hseen
    rw [hst]
    have valued : ∀ v, outcome p H = some (.out (.val v)) →
        LI r H (hist ++ [.turn a]) p ({ l with s := Prom.St.await l.s a r, phase := .waiting a } : St).advance := by
      intro v ho
      obtain ⟨hd, hexc, hres⟩ := hval v ho
      rw [htk] at hres
      have e1 : ({ l with s := Prom.St.await l.s a r, phase := .waiting a } : St).advance =
          { l with s := Prom.St.await l.s a r, phase := .head, seen := [some v] } := by
        unfold St.advance
        simp [Prom.St.await, hR, hd, Prom.St.resumeAw, Prom.St.getResult, hexc, hres, hk, hseen]
      rw [e1]
      refine ⟨hp, h.holds, ⟨{ R with taken := true, result := some none }, ?_, by simp, by simp [hA], by simp,
        fun _ => ⟨v, rfl, ho, rfl⟩⟩, by simp, by simp, by simp⟩
      simp [Prom.St.await, hR, hd, Prom.St.resumeAw, Prom.St.getResult, hexc, hres]
    have failed : ∀ x, R.done = true → R.exc = some x → ((∃ y, outcome p H = some (.out (.exc y)) ∧ x = .user y) ∨
        outcome p H = some .killed ∧ x = .unexpected) →
        LI r H (hist ++ [.turn a]) p ({ l with s := Prom.St.await l.s a r, phase := .waiting a } : St).advance := by
      intro x hd hx ho
      have e1 : ({ l with s := Prom.St.await l.s a r, phase := .waiting a } : St).advance =
          { l with s := Prom.St.await l.s a r, phase := .thrown x } := by
        unfold St.advance
        simp [Prom.St.await, hR, hd, Prom.St.resumeAw, Prom.St.getResult, hx, hk]
      rw [e1]
      refine ⟨hp, h.holds, ⟨{ R with taken := true }, ?_, by simp, by simp [hA], by simp,
        fun hs => absurd hseen hs⟩, by simp, fun e' he => ?_, by simp⟩
      · simp [Prom.St.await, hR, hd, Prom.St.resumeAw, Prom.St.getResult, hx]
      · simp only [Phase.thrown.injEq] at he
        subst he
        exact ⟨hseen, .inr ho⟩
    cases hHc : H with
    | coro c =>
      have hfit' := hfit
      rw [hHc] at hfit'
      obtain ⟨-, hfit'⟩ := hfit'
      rw [← hHc]
      cases hn : p.ended c with
      | none =>
        have hn' : ({ p with target := t } : Sp).ended c = none := hn
        rw [hn'] at hfit'
        have hd := hfit'.1
        have e1 : ({ l with s := Prom.St.await l.s a r, phase := .waiting a } : St).advance =
            { l with s := Prom.St.await l.s a r, phase := .waiting a } := by
          unfold St.advance
          simp [Prom.St.await, hR, hd, hA, hk]
        rw [e1]
        refine ⟨hp, h.holds, ⟨{ R with awaited := some a }, ?_, fun b hx => ?_, fun hx => absurd rfl (hx a), by simp,
          fun hs => absurd hseen hs⟩, by simp, by simp, by simp⟩
        · simp [Prom.St.await, hR, hd, hA]
        · simp only [Phase.waiting.injEq] at hx
          subst hx
          exact ⟨rfl, hseen, by simp⟩
      | some e =>
        have hn' : ({ p with target := t } : Sp).ended c = some e := hn
        rw [hn'] at hfit'
        rcases e with (v | x) | _
        · exact valued v (by simp [outcome, hHc, hn])
        · exact failed _ hfit'.1 hfit'.2.2 (.inl ⟨x, by simp [outcome, hHc, hn], rfl⟩)
        · exact failed _ hfit'.1 hfit'.2.2 (.inr ⟨by simp [outcome, hHc, hn], rfl⟩)
    | ready v => rw [← hHc]; exact valued v (by simp [outcome, hHc])
    | _ => rw [hHc] at hH; simp [proper] at hH
  · rename_i hb
    simp only [St.test, hR, Rec.toBool, Bool.not_eq_true, Bool.or_eq_false_iff, Bool.not_eq_eq_eq_not, Bool.not_false] at hb
    refine ⟨h.inv, h.holds, ⟨R, hR, by simp, fun _ => hA, by simp, r4⟩, fun _ hs => ?_, by simp, by simp⟩
    have := r3 hph hs
    rw [hb.2] at this
    simp at this

theorem LI.leave (h : LI r H hist p l) (hph : l.phase = .head) :
    LI r H (hist ++ [.leave]) p { l with phase := .broken } := by
  obtain ⟨R, hR, r1, r2, r3, r4⟩ := h.recv
  exact ⟨h.inv, h.holds, ⟨R, hR, by simp, fun _ => r2 (by simp [hph]), by simp, r4⟩, by simp, by simp, by simp⟩

theorem LI.step (h : LI r H hist p l) (hH : proper H = true) {e : Ev} (hc : l.can r e = true)
    (ht : ∀ e', e = .other e' → Tidy p l.s e') : LI r H (hist ++ [e]) (p.steps (others [e])) (l.step r e) := by
  unfold St.step
  rw [if_neg (by simp [hc])]
  cases e with
  | turn a =>
    simp only [St.can, Bool.and_eq_true, beq_iff_eq] at hc
    exact h.turn hH hc.1 hc.2
  | leave =>
    simp only [St.can, beq_iff_eq] at hc
    exact h.leave hc
  | other e =>
    simp only [St.can, Bool.and_eq_true] at hc
    exact h.other hH hc.2 (ht e rfl) hc.1

theorem LI.steps (es : List Ev) : ∀ {hist : List Ev} {p : Sp} {l : St}, LI r H hist p l → proper H = true →
    TidyRun r p l es → LI r H (hist ++ es) (p.steps (others es)) (l.steps r es) := by
  induction es with
  | nil => intro hist p l h _ _; simpa [others, Sp.steps, St.steps] using h
  | cons e es ih =>
    intro hist p l h hH ht
    have := ih (h.step hH ht.1 ht.2.1) hH ht.2.2
    have e2 : others (e :: es) = others [e] ++ others es := by
      simp only [others]
      rw [← List.filterMap_append]
      rfl
    rw [e2]
    simpa [Sp.steps, St.steps] using this

/-- A loop over a promise that nobody awaits. -/
theorem LI.init {p : Sp} {s : Prom.St} (h : Inv p s) {R : Rec} (hR : s.recv r = some R) (hf : R.awaited = none)
    (hb : R.toBool = true) (hp : proper (p.holds r) = true) : LI r (p.holds r) [] p { s := s } := by
  refine ⟨⟨p.target, h⟩, rfl, ⟨R, hR, by simp, fun _ => hf, fun _ _ => ?_, by simp⟩, by simp, by simp, by simp⟩
  have hfit := h.fit r R hR
  cases htk : R.taken with
  | false => rfl
  | true =>
    simp only [Rec.toBool, htk, Bool.not_true, Bool.or_false, Bool.not_eq_eq_eq_not] at hb
    cases hH : p.holds r with
    | coro c =>
      rw [hH] at hfit
      obtain ⟨-, hfit⟩ := hfit
      cases hn : p.ended c with
      | none => rw [hn] at hfit; rw [hfit.2.2.1] at htk; simp at htk
      | some e => rw [hn] at hfit; rcases e with (v | x) | _ <;> simp_all
    | ready v => rw [hH] at hfit; have := hfit.1; simp_all
    | _ => rw [hH] at hp; simp [proper] at hp

end For

end Cobalt.Prom
