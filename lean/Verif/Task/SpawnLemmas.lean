import Verif.Task.Props
/-!
# Lemmas for the exact form of C48
-/
namespace Cobalt.Task

open Prom (Err Out Got End fits upd upd_apply)

/-- What an event may change of the awaits: `a` is as it was but for `posted` and `got`, or new. -/
def Same (s s' : St) : Prop :=
  (∀ a, a ∈ s.killed → a ∈ s'.killed) ∧ (∀ a, s'.aw a = none → s.aw a = none) ∧
  ∀ a w', s'.aw a = some w' → ∃ w, s.aw a = some w ∧ w.spawned = w'.spawned ∧ w.ready = w'.ready ∧
    (w.posted = true → w'.posted = true)

theorem Same.rfl' {s s' : St} (hk : s'.killed = s.killed) (ha : s'.aw = s.aw) : Same s s' :=
  ⟨fun a h => by rw [hk]; exact h, fun a h => by rw [← ha]; exact h, fun a w h => ⟨w, by rw [← ha]; exact h, rfl, rfl, id⟩⟩

theorem Same.trans {s s' s'' : St} (h : Same s s') (h' : Same s' s'') : Same s s'' :=
  ⟨fun a ha => h'.1 a (h.1 a ha), fun a ha => h.2.1 a (h'.2.1 a ha), fun a w hw => by
    obtain ⟨w1, h1, h2, h3, h7⟩ := h'.2.2 a w hw
    obtain ⟨w2, h4, h5, h6, h8⟩ := h.2.2 a w1 h1
    exact ⟨w2, h4, h5.trans h2, h6.trans h3, fun h => h7 (h8 h)⟩⟩

theorem Same.setAw {s : St} {a : Nat} {w w' : Aw} {r : Nat → Option Rec} {l : List (Nat × Got)} (hw : s.aw a = some w)
    (h1 : w.spawned = w'.spawned) (h2 : w.ready = w'.ready) (h3 : w.posted = true → w'.posted = true) :
    Same s { s with aw := upd s.aw a (some w'), recv := r, log := l } :=
  ⟨fun _ h => h, fun b hb => by
    simp only [upd_apply] at hb
    split at hb
    · cases hb
    · exact hb, fun b wb hb => by
    simp only [upd_apply] at hb
    split at hb
    · rename_i e; subst e
      cases hb
      exact ⟨w, hw, h1, h2, h3⟩
    · exact ⟨wb, hb, rfl, rfl, id⟩⟩

theorem Same.resume (s : St) (a : Nat) : Same s (s.resumeAw a) := by
  unfold St.resumeAw
  split
  · exact Same.rfl' rfl rfl
  · rename_i w hw
    split
    · exact Same.setAw (r := s.recv) (l := s.log) hw rfl rfl (fun _ => rfl)
    · split
      · exact Same.rfl' rfl rfl
      · split
        · exact Same.rfl' rfl rfl
        · exact Same.setAw hw rfl rfl id

theorem Same.start (s : St) (c : Nat) : Same s (s.start c) := by
  unfold St.start
  split
  · exact Same.rfl' rfl rfl
  · split <;> exact Same.rfl' rfl rfl

/-- Whoever was there before an await or a spawn is there after it. -/
def SameBut (a : Nat) (s s' : St) : Prop :=
  (∀ b, b ∈ s.killed → b ∈ s'.killed) ∧ (∀ b, s'.aw b = none → s.aw b = none) ∧
  ∀ b w', b ≠ a → s'.aw b = some w' → ∃ w, s.aw b = some w ∧ w.spawned = w'.spawned ∧ w.ready = w'.ready ∧
    (w.posted = true → w'.posted = true)

theorem mem_kill {l : List Nat} (o : Option Nat) {a : Nat} (h : a ∈ l) :
    a ∈ (match o with | some b => b :: l | none => l) := by
  cases o <;> simp [h]

theorem Same.move (s : St) (r r' : Nat) : Same s (s.moveConstruct r r') := by
  unfold St.moveConstruct
  dsimp only
  repeat' split
  all_goals exact Same.rfl' rfl rfl

theorem Same.step (s : St) (e : Ev) (hn : ∀ a r, e ≠ .await a r) (hs : ∀ a r r', e ≠ .spawn a r r') : Same s (s.step e) := by
  unfold St.step
  split
  · exact Same.rfl' rfl rfl
  · cases e with
    | create => exact Same.rfl' rfl rfl
    | noop => exact Same.rfl' rfl rfl
    | await a r => exact absurd rfl (hn a r)
    | spawn a r r' => exact absurd rfl (hs a r r')
    | interrupt a =>
      simp only [St.interrupt]
      split
      · exact Same.rfl' rfl rfl
      · split
        · exact Same.rfl' rfl rfl
        · split
          · exact Same.rfl' rfl rfl
          · refine Same.trans ?_ (Same.resume _ _)
            exact Same.rfl' rfl rfl
    | finish c o =>
      simp only [St.finish]
      split
      · exact Same.rfl' rfl rfl
      · split
        · split <;> exact Same.rfl' rfl rfl
        · split
          · exact Same.rfl' rfl rfl
          · split
            · exact Same.rfl' rfl rfl
            · refine Same.trans ?_ (Same.resume _ _)
              exact Same.rfl' rfl rfl
    | kill c =>
      simp only [St.kill]
      split
      · exact Same.rfl' rfl rfl
      · split
        · exact Same.rfl' rfl rfl
        · split
          · exact Same.rfl' rfl rfl
          · exact ⟨fun a h => mem_kill _ h, fun _ h => h, fun a w h => ⟨w, h, rfl, rfl, id⟩⟩
    | moveC r r' => exact Same.move s r r'
    | drop r =>
      simp only [St.destroyRec]
      split
      · exact Same.rfl' rfl rfl
      · split
        · exact ⟨fun a h => mem_kill _ h, fun _ h => h, fun a w h => ⟨w, h, rfl, rfl, id⟩⟩
        · split
          · exact ⟨fun a h => mem_kill _ h, fun _ h => h, fun a w h => ⟨w, h, rfl, rfl, id⟩⟩
          · split
            · exact Same.rfl' rfl rfl
            · exact ⟨fun a h => mem_kill _ h, fun _ h => h, fun a w h => ⟨w, h, rfl, rfl, id⟩⟩
    | begin c =>
      refine Same.trans ?_ (Same.start _ _)
      exact Same.rfl' rfl rfl
    | deliver a =>
      simp only [St.deliver]
      split
      · exact Same.rfl' rfl rfl
      · rename_i w hw
        split
        · exact Same.setAw (r := s.recv) hw rfl rfl id
        · split
          · exact Same.rfl' rfl rfl
          · exact Same.setAw hw rfl rfl id
    | cancel a =>
      simp only [St.cancel]
      repeat' split
      all_goals exact Same.rfl' rfl rfl

theorem SameBut.await (s : St) (a r : Nat) : SameBut a s (s.await a r) ∧
    ∀ w, s.aw a = none → (s.await a r).aw a = some w → w.spawned = false ∧ w.ready = none := by
  have key : ∀ (s1 : St), Same s1 (s.await a r) → (∀ b, b ∈ s.killed → b ∈ s1.killed) →
      s1.aw = upd s.aw a (some { self := r }) → SameBut a s (s.await a r) ∧
      ∀ w, s.aw a = none → (s.await a r).aw a = some w → w.spawned = false ∧ w.ready = none := by
    intro s1 h1 h2 h3
    refine ⟨⟨fun b hb => h1.1 b (h2 b hb), fun b hb => ?_, fun b w hb hw => ?_⟩, fun w _ hw => ?_⟩
    · have := h1.2.1 b hb
      rw [h3] at this
      simp only [upd_apply] at this
      split at this
      · cases this
      · exact this
    · obtain ⟨w1, h4, h5⟩ := h1.2.2 b w hw
      rw [h3] at h4
      exact ⟨w1, by simpa [hb] using h4, h5⟩
    · obtain ⟨w1, h4, h5⟩ := h1.2.2 a w hw
      rw [h3] at h4
      simp at h4
      subst h4
      exact ⟨h5.1.symm, h5.2.1.symm⟩
  cases hR : s.recv r with
  | none =>
    have : s.await a r = { s with ub := true } := by simp [St.await, hR]
    rw [this]
    exact ⟨⟨fun _ h => h, fun _ h => h, fun b w _ h => ⟨w, h, rfl, rfl, id⟩⟩, fun w h1 h2 => by
      have : s.aw a = some w := h2
      rw [h1] at this; cases this⟩
  | some R =>
    cases hd : R.done with
    | true =>
      have e1 : s.await a r = St.resumeAw { s with aw := upd s.aw a (some { self := r }) } a := by
        simp [St.await, hR, hd]
      exact key { s with aw := upd s.aw a (some { self := r }) } (e1 ▸ Same.resume _ _) (fun _ h => h) rfl
    | false =>
      refine key { s with
        aw := upd s.aw a (some { self := r }), recv := upd s.recv r (some { R with awaited := some a })
        killed := match R.awaited with | some b => b :: s.killed | none => s.killed } ?_ (fun b h => mem_kill _ h) rfl
      cases hp : R.prom with
      | none => simp only [St.await, hR, hd, hp]; exact Same.rfl' rfl rfl
      | some c => simp only [St.await, hR, hd, hp]; exact Same.start _ _

theorem SameBut.spawn (s : St) (a r r' : Nat) : SameBut a s (s.spawn a r r') ∧
    ∀ w, s.aw a = none → (s.spawn a r r').aw a = some w → w.ready = none →
      ∃ R, s.recv r = some R ∧ R.done = false := by
  cases hR : s.recv r with
  | none =>
    have : s.spawn a r r' = { s with ub := true } := by simp [St.spawn, hR]
    rw [this]
    exact ⟨⟨fun _ h => h, fun _ h => h, fun b w _ h => ⟨w, h, rfl, rfl, id⟩⟩, fun w h1 h2 => by
      have : s.aw a = some w := h2
      rw [h1] at this; cases this⟩
  | some R =>
    cases hd : R.done with
    | true =>
      cases hg : St.doneGot R with
      | none =>
        have : s.spawn a r r' = { s with ub := true } := by simp [St.spawn, hR, hd, hg]
        rw [this]
        exact ⟨⟨fun _ h => h, fun _ h => h, fun b w _ h => ⟨w, h, rfl, rfl, id⟩⟩, fun w h1 h2 => by
          have : s.aw a = some w := h2
          rw [h1] at this; cases this⟩
      | some g =>
        simp only [St.spawn, hR, hd, hg, if_true]
        refine ⟨⟨fun _ h => h, fun b h => ?_, fun b w hb h => ⟨w, by simpa [hb] using h, rfl, rfl, id⟩⟩, fun w _ h1 h2 => ?_⟩
        · simp only [upd_apply] at h
          split at h
          · cases h
          · exact h
        simp at h1
        subst h1
        simp at h2
    | false =>
      have hm := Same.move s r r'
      simp only [St.spawn, hR, hd, Bool.false_eq_true, if_false]
      refine ⟨?_, fun w _ _ _ => ⟨R, rfl, hd⟩⟩
      split
      · exact ⟨hm.1, hm.2.1, fun b w _ h => hm.2.2 b w h⟩
      · refine ⟨fun b hb => mem_kill _ (hm.1 b hb), fun b h => hm.2.1 b ?_, fun b w hb h => hm.2.2 b w ?_⟩
        · simp only [upd_apply] at h
          split at h
          · cases h
          · exact h
        · simpa [hb] using h

theorem spawn_post (s : St) (a r r' : Nat) (w : Aw) (hn : s.aw a = none) (hw : (s.spawn a r r').aw a = some w)
    (hr : w.ready ≠ none) : w.posted = true := by
  have hm : (s.moveConstruct r r').aw a = none := by
    unfold St.moveConstruct
    dsimp only
    repeat' split
    all_goals exact hn
  unfold St.spawn at hw
  split at hw
  · rw [show ({ s with ub := true } : St).aw a = s.aw a from rfl, hn] at hw; cases hw
  · split at hw
    · split at hw
      · rw [show ({ s with ub := true } : St).aw a = s.aw a from rfl, hn] at hw; cases hw
      · simp at hw; subst hw; rfl
    · dsimp only at hw
      split at hw
      · rw [show ({ s.moveConstruct r r' with ub := true } : St).aw a = (s.moveConstruct r r').aw a from rfl, hm] at hw
        cases hw
      · simp at hw; subst hw; simp at hr

/-- What is to be shown of spawns, besides `Inv`. -/
structure Sl (p : Sp) (s : St) : Prop where
  new : ∀ a, s.aw a = none → p.asked a = false
  asked : ∀ a w, s.aw a = some w → w.spawned = true → p.asked a = false
  slain : ∀ a w c, s.aw a = some w → w.spawned = true → w.ready = none → p.target a = .coro c →
    p.ended c = some .killed → a ∈ s.killed
  post : ∀ a w, s.aw a = some w → w.ready ≠ none → w.posted = true

theorem Sl.init : Sl {} {} := by constructor <;> simp

/-- Where a spawn is whose coroutine has not ended. -/
theorem Inv.spawned {p : Sp} {s : St} (h : Inv p s) (l : Sl p s) {a c : Nat} {w : Aw} (hw : s.aw a = some w)
    (hs : w.spawned = true) (hr : w.ready = none) (ht : p.target a = .coro c) (he : p.ended c = none)
    (hk : a ∉ s.killed) : ∃ R, s.recv w.self = some R ∧ R.awaited = some a ∧ R.owner ≠ none ∧ p.holds w.self = .coro c := by
  have hg : w.got = none := by
    cases hg : w.got with
    | none => rfl
    | some g =>
      rcases h.got a w g hw hg with h1 | h1
      · rw [l.asked a w hw hs] at h1; simp at h1
      · rw [ht] at h1
        obtain ⟨e, h2, -⟩ := h1
        rw [he] at h2; cases h2
  have hp : w.posted = false := by
    cases hp : w.posted with
    | false => rfl
    | true =>
      obtain ⟨R, hR, ho, hd⟩ := h.postN a w hw hg hp hr
      obtain ⟨⟨c', h1, h2⟩, -⟩ := h.owned _ R a hR ho
      rw [ht] at h2; cases h2
      rw [(h.going _ R c hR h1 he).1] at hd; cases hd
  obtain ⟨-, R, hR, ha, -⟩ := h.pend a w hw hg hk hp
  obtain ⟨c', h1, h2⟩ := h.awaitedGoing hR ha
  have h3 := h.tgt _ R a c' hR ha h1
  rw [ht] at h3; cases h3
  refine ⟨R, hR, ha, fun ho => ?_, h1⟩
  have := (h.waits _ R a hR ha).1
  rw [hw] at this
  injection this with this
  rw [this] at hs
  simp [ho] at hs

theorem Sl.step {p : Sp} {s : St} (h : Inv p s) (l : Sl p s) {e : Ev} (hc : s.can e = true) :
    Sl (p.step e) (s.step e) := by
  have est : ∀ {x : St}, (if (s.ub || !s.can e) = true then s else x) = x := fun {x} => by
    rw [if_neg (by simp [h.ub, hc])]
  by_cases hna : ∃ a r, e = .await a r
  · obtain ⟨a, r, rfl⟩ := hna
    have e1 : s.step (.await a r) = s.await a r := by unfold St.step; exact est
    have haw : s.aw a = none := by
      simp only [St.can, Bool.and_eq_true, Option.isNone_iff_eq_none] at hc; exact hc.1
    obtain ⟨h1, h2⟩ := SameBut.await s a r
    rw [e1]
    constructor
    · exact fun b hb => l.new b (h1.2.1 b hb)
    · intro b w hw hs
      by_cases hab : b = a
      · subst hab
        rw [(h2 w haw hw).1] at hs; cases hs
      · obtain ⟨w1, h3, h4, h5, hpo⟩ := h1.2.2 b w hab hw
        exact l.asked b w1 h3 (h4.trans hs)
    · intro b w c hw hs hr htg he
      by_cases hab : b = a
      · subst hab
        rw [(h2 w haw hw).1] at hs; cases hs
      · obtain ⟨w1, h3, h4, h5, hpo⟩ := h1.2.2 b w hab hw
        have : p.target b = .coro c := by simpa [Sp.step, hab] using htg
        exact h1.1 b (l.slain b w1 c h3 (h4.trans hs) (h5.trans hr) this he)
    · intro b w hw hr
      by_cases hab : b = a
      · subst hab
        exact absurd (h2 w haw hw).2 hr
      · obtain ⟨w1, h3, h4, h5, hpo⟩ := h1.2.2 b w hab hw
        exact hpo (l.post b w1 h3 (by rw [h5]; exact hr))
  · by_cases hns : ∃ a r r', e = .spawn a r r'
    · obtain ⟨a, r, r', rfl⟩ := hns
      have e1 : s.step (.spawn a r r') = s.spawn a r r' := by unfold St.step; exact est
      have haw : s.aw a = none := by
        simp only [St.can, Bool.and_eq_true, Option.isNone_iff_eq_none] at hc; exact hc.1.1
      obtain ⟨h1, h2⟩ := SameBut.spawn s a r r'
      rw [e1]
      constructor
      · exact fun b hb => l.new b (h1.2.1 b hb)
      · intro b w hw hs
        by_cases hab : b = a
        · subst hab
          exact l.new b haw
        · obtain ⟨w1, h3, h4, h5, hpo⟩ := h1.2.2 b w hab hw
          exact l.asked b w1 h3 (h4.trans hs)
      · intro b w c hw hs hr htg he
        have hk' : p.ended c = some .killed := he
        by_cases hab : b = a
        · subst hab
          obtain ⟨R, hR, hd⟩ := h2 w haw hw hr
          obtain ⟨c', h3, h4⟩ := h.notDone hR hd
          have : p.holds r = .coro c := by simpa [Sp.step] using htg
          rw [this] at h3; cases h3
          rw [hk'] at h4; cases h4
        · obtain ⟨w1, h3, h4, h5, hpo⟩ := h1.2.2 b w hab hw
          have : p.target b = .coro c := by simpa [Sp.step, hab] using htg
          exact h1.1 b (l.slain b w1 c h3 (h4.trans hs) (h5.trans hr) this hk')
      · intro b w hw hr
        by_cases hab : b = a
        · subst hab
          exact spawn_post s b r r' w haw hw hr
        · obtain ⟨w1, h3, h4, h5, hpo⟩ := h1.2.2 b w hab hw
          exact hpo (l.post b w1 h3 (by rw [h5]; exact hr))
    · have h1 : Same s (s.step e) := Same.step s e (fun a r e' => hna ⟨a, r, e'⟩) (fun a r r' e' => hns ⟨a, r, r', e'⟩)
      have htg : (p.step e).target = p.target := by
        cases e <;> first | rfl | exact absurd ⟨_, _, rfl⟩ hna | exact absurd ⟨_, _, _, rfl⟩ hns
      have hask : ∀ b, (p.step e).asked b = true → p.asked b = true ∨ e = .interrupt b := by
        intro b hb
        cases e <;> first
          | exact Or.inl hb
          | (simp only [Sp.step, upd_apply] at hb
             split at hb
             · rename_i e'; subst e'; exact Or.inr rfl
             · exact Or.inl hb)
      constructor
      · intro b hb
        have hn := h1.2.1 b hb
        cases hx : (p.step e).asked b with
        | false => rfl
        | true =>
          rcases hask b hx with h2 | rfl
          · rw [l.new b hn] at h2; cases h2
          · simp [St.can, hn] at hc
      · intro b w hw hs
        obtain ⟨w1, h3, h4, h5, hpo⟩ := h1.2.2 b w hw
        cases hx : (p.step e).asked b with
        | false => rfl
        | true =>
          rcases hask b hx with h2 | rfl
          · rw [l.asked b w1 h3 (h4.trans hs)] at h2; cases h2
          · simp [St.can, h3, h4.trans hs] at hc
      · intro b w c hw hs hr htb he
        obtain ⟨w1, h3, h4, h5, hpo⟩ := h1.2.2 b w hw
        rw [htg] at htb
        have hs1 := h4.trans hs
        have hr1 := h5.trans hr
        by_cases hold : p.ended c = some .killed
        · exact h1.1 b (l.slain b w1 c h3 hs1 hr1 htb hold)
        · by_cases hk : b ∈ s.killed
          · exact h1.1 b hk
          · cases e with
            | kill c' =>
              have hcc : c = c' := by
                simp only [Sp.step, upd_apply] at he
                split at he
                · assumption
                · exact absurd he hold
              subst hcc
              have hen : p.ended c = none := by
                cases hf : s.frame c with
                | none => simp [St.can, hf] at hc
                | some f => exact (h.frame c f hf).2.2.2 (by simp [St.can, hf] at hc; exact hc.2)
              obtain ⟨R, hR, ha, ho, hh⟩ := h.spawned l h3 hs1 hr1 htb hen hk
              have hf := (h.going _ R c hR hh hen).2.2.2
              have e1 : s.step (.kill c) = s.kill c := by unfold St.step; exact est
              rw [e1]
              simp [St.kill, hf, hR, ha]
            | drop r =>
              exfalso
              simp only [Sp.step] at he
              cases hg : p.going (p.holds r) with
              | none => rw [hg] at he; exact hold he
              | some c' =>
                rw [hg] at he
                simp only at he
                split at he
                · exact hold he
                · simp only [upd_apply] at he
                  split at he
                  · rename_i hcc
                    subst hcc
                    have hh : p.holds r = .coro c ∧ p.ended c = none := by
                      cases hx : p.holds r <;> rw [hx] at hg <;> simp [Sp.going] at hg
                      obtain ⟨h6, h7⟩ := hg
                      subst h7
                      exact ⟨rfl, h6⟩
                    obtain ⟨R, hR, ha, ho, hh'⟩ := h.spawned l h3 hs1 hr1 htb hh.2 hk
                    have hf := (h.going _ R c hR hh' hh.2).2.2.2
                    cases hR' : s.recv r with
                    | none => simp [St.can, St.user, hR'] at hc
                    | some R' =>
                      have hf' := (h.going _ R' c hR' hh.1 hh.2).2.2.2
                      rw [hf] at hf'
                      simp at hf'
                      rw [hf'] at hR
                      rw [hR'] at hR; cases hR
                      simp [St.can, St.user, hR'] at hc
                      exact ho hc
                  · exact hold he
            | finish c' o =>
              simp only [Sp.step, upd_apply] at he
              split at he
              · cases he
              · exact absurd he hold
            | await a r => exact absurd ⟨_, _, rfl⟩ hna
            | spawn a r r' => exact absurd ⟨_, _, _, rfl⟩ hns
            | create => exact absurd he hold
            | noop => exact absurd he hold
            | interrupt => exact absurd he hold
            | moveC => exact absurd he hold
            | begin => exact absurd he hold
            | deliver => exact absurd he hold
            | cancel => exact absurd he hold
      · intro b w hw hr
        obtain ⟨w1, h3, h4, h5, hpo⟩ := h1.2.2 b w hw
        exact hpo (l.post b w1 h3 (by rw [h5]; exact hr))

theorem Sl.steps {es : List Ev} : ∀ {p : Sp} {s : St}, Inv p s → Sl p s → TidyRun p s es → Sl (p.steps es) (s.steps es) := by
  induction es with
  | nil => exact fun _ l _ => l
  | cons e es ih => exact fun h l t => ih (h.step t.1 t.2.1) (l.step h t.1) t.2.2

theorem Sl.run {es : List Ev} (ht : TidyRun {} {} es) : Sl (spec es) (St.run es) := Sl.steps Inv.init Sl.init ht

end Cobalt.Task
