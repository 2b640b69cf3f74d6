import Verif.Task.Inv
namespace Cobalt.Task

open Prom (Err Out Got End fits upd upd_apply)

variable {p : Sp} {s : St}

theorem Inv.create (h : Inv p s) {c r : Nat} (hc : s.can (.create c r) = true) :
    Inv (p.step (.create c r)) (s.step (.create c r)) := by
  unfold St.step; rw [if_neg (by simp [h.ub, hc])]
  simp only [St.can, Bool.and_eq_true, Bool.not_eq_eq_eq_not, Bool.not_true, Option.isNone_iff_eq_none] at hc
  obtain ⟨hb, hr⟩ := hc
  have hu := h.unborn c hb
  have hf : s.frame c = none := by
    cases hf : s.frame c with
    | none => rfl
    | some f => have := (h.frame c f hf).1; rw [hb] at this; simp at this
  constructor <;> simp only [Sp.step, upd_apply]
  case ub => exact h.ub
  case here => have := h.here; grind
  case prom => have := h.prom; grind
  case going => have := h.going; have := h.unheld; grind
  case over => have := h.over; grind
  case ready => have := h.ready; grind
  case moved => have := h.moved; grind
  case husk => have := h.husk; grind
  case frame => have := h.frame; grind
  case back => have := h.back; grind
  case unborn => have := h.unborn; grind
  case unheld => have := h.unheld; grind
  case live =>
    intro x hx he
    by_cases hxc : x = c
    · exact ⟨_, if_pos hxc, rfl⟩
    · rw [if_neg hxc] at hx ⊢
      exact h.live x hx he
  case waits => have := h.waits; grind
  case tgt => have := h.tgt; grind
  case begunW => have := h.begunW; grind
  case owned => have := h.owned; grind
  case queue => have := h.queue; grind
  case pend => have := h.pend; grind
  case posted => exact h.posted
  case postR => exact h.postR
  case postN => have := h.postN; grind
  case got => exact h.got
  case log => exact h.log
  case once => exact h.once
  case killed => exact h.killed
  case slain => have := h.slain; grind
  case starts => exact h.starts

theorem Inv.noop (h : Inv p s) {r v : Nat} (hc : s.can (.noop r v) = true) :
    Inv (p.step (.noop r v)) (s.step (.noop r v)) := by
  unfold St.step; rw [if_neg (by simp [h.ub, hc])]
  simp only [St.can, Option.isNone_iff_eq_none] at hc
  constructor <;> simp only [Sp.step, upd_apply]
  case ub => exact h.ub
  case here => have := h.here; grind
  case prom => have := h.prom; grind
  case going => have := h.going; grind
  case over => have := h.over; grind
  case ready => have := h.ready; grind
  case moved => have := h.moved; grind
  case husk => have := h.husk; grind
  case frame => have := h.frame; grind
  case back => have := h.back; grind
  case unborn => have := h.unborn; grind
  case unheld => have := h.unheld; grind
  case live => exact h.live
  case waits => have := h.waits; grind
  case tgt => have := h.tgt; grind
  case begunW => have := h.begunW; grind
  case owned => have := h.owned; grind
  case queue => have := h.queue; grind
  case pend => have := h.pend; grind
  case posted => exact h.posted
  case postR => exact h.postR
  case postN => have := h.postN; grind
  case got => exact h.got
  case log => exact h.log
  case once => exact h.once
  case killed => exact h.killed
  case slain => have := h.slain; grind
  case starts => exact h.starts

/-- The result of a task that is done. -/
theorem Inv.result (h : Inv p s) {r : Nat} {R : Rec} (hR : s.recv r = some R) (hd : R.done = true)
    (hh : p.holds r ≠ .husk) : ∃ g x, St.getResult R = some ({ R with taken := true, result := x }, g) ∧
      (∀ p' a, p'.target a = p.holds r → p'.ended = p.ended → Explains p' a g) ∧
      (∀ c e, p.holds r = .coro c → p.ended c = some e → Gives { R with taken := true, result := x } e) ∧
      (∀ v, p.holds r = .ready v → x = some none) := by
  have hn := h.here r R hR
  have e1 : ∀ c, p.holds r = .coro c → ∃ e, p.ended c = some e := by
    intro c hc
    cases he : p.ended c with
    | none => have := (h.going r R c hR hc he).1; rw [hd] at this; simp at this
    | some e => exact ⟨e, rfl⟩
  cases hx : p.holds r with
  | none => exact absurd hx hn
  | husk => exact absurd hx hh
  | coro c =>
    obtain ⟨e, he⟩ := e1 c hx
    obtain ⟨-, -, h3⟩ := h.over r R c e hR hx he
    rcases e with (v | x) | _ <;> simp only [Gives] at h3
    · refine ⟨if R.taken then .moved else .val v, some none, ?_, ?_, ?_, by simp⟩
      · simp only [St.getResult, h3.1, h3.2]
        cases R.taken <;> simp
      · intro p' a h1 h2
        refine Or.inr ?_
        rw [h1, hx] at *
        refine ⟨_, by rw [h2]; exact he, ?_⟩
        simp only [fits]
        cases R.taken <;> simp
      · intro c' e' h1 h2
        simp only [Holds.coro.injEq] at h1; subst h1
        rw [he] at h2; simp only [Option.some.injEq] at h2; subst h2
        simp [Gives, h3.1]
    · refine ⟨.err (.user x), R.result, ?_, ?_, ?_, by simp⟩
      · simp [St.getResult, h3, hd]
      · intro p' a h1 h2
        refine Or.inr ?_
        rw [h1, hx] at *
        exact ⟨_, (congrFun h2 c).trans he, rfl⟩
      · intro c' e' h1 h2
        simp only [Holds.coro.injEq] at h1; subst h1
        rw [he] at h2; simp only [Option.some.injEq] at h2; subst h2
        simp [Gives, h3]
    · refine ⟨.err .unexpected, R.result, ?_, ?_, ?_, by simp⟩
      · simp [St.getResult, h3, hd]
      · intro p' a h1 h2
        refine Or.inr ?_
        rw [h1, hx] at *
        exact ⟨_, (congrFun h2 c).trans he, rfl⟩
      · intro c' e' h1 h2
        simp only [Holds.coro.injEq] at h1; subst h1
        rw [he] at h2; simp only [Option.some.injEq] at h2; subst h2
        simp [Gives, h3]
  | ready v =>
    obtain ⟨-, -, h3, h4⟩ := h.ready r R v hR hx
    refine ⟨if R.taken then .moved else .val v, some none, ?_, ?_, by simp, by simp⟩
    · simp only [St.getResult, h3, h4]
      cases R.taken <;> simp
    · intro p' a h1 h2
      refine Or.inr ?_
      rw [h1]
      cases R.taken <;> simp
  | moved =>
    obtain ⟨-, -, h3⟩ := h.moved r R hR hx
    refine ⟨.err .movedFrom, R.result, ?_, ?_, by simp, by simp⟩
    · simp [St.getResult, h3, hd]
    · intro p' a h1 h2
      refine Or.inr ?_
      rw [h1]

theorem Inv.await (h : Inv p s) {a r : Nat} (hc : s.can (.await a r) = true) (ht : Tidy p s (.await a r)) :
    Inv (p.step (.await a r)) (s.step (.await a r)) := by
  unfold St.step; rw [if_neg (by simp [h.ub, hc])]
  simp only [St.can, St.user, Bool.and_eq_true, Option.isNone_iff_eq_none] at hc
  obtain ⟨ha, hu⟩ := hc
  cases hR : s.recv r with
  | none => rw [hR] at hu; simp at hu
  | some R =>
    simp only [hR, beq_iff_eq] at hu
    have hk : a ∉ s.killed := by
      intro hk; obtain ⟨w, hw, -⟩ := h.killed a hk; rw [ha] at hw; simp at hw
    have hw : ∀ x X, s.recv x = some X → X.awaited ≠ some a := by
      intro x X hX hA; have := (h.waits x X a hX hA).1; rw [ha] at this; simp at this
    have hl : ∀ g, (a, g) ∉ s.log := by
      intro g hg; obtain ⟨w, hw, -⟩ := (h.log a g).1 hg; rw [ha] at hw; simp at hw
    simp only [St.await, hR]
    cases hd : R.done with
    | true =>
      obtain ⟨g, x, h1, h2, h3, h4⟩ := h.result hR hd ht.1
      have hgo : p.going (p.holds r) = none := by
        cases hx : p.holds r with
        | coro c =>
          simp only [Sp.going]
          rw [if_neg]
          intro he
          have := (h.going r R c hR hx he).1
          rw [hd] at this; simp at this
        | _ => rfl
      simp only [if_true, St.resumeAw, upd_apply, Bool.false_eq_true, if_false, hR, h1]
      have hE : Explains (p.step (.await a r)) a g := h2 _ _ (by simp [Sp.step]) (by simp [Sp.step])
      have hM : ∀ b g, b ≠ a → Explains p b g → Explains (p.step (.await a r)) b g :=
        fun b g hb h => h.mono (by simp [Sp.step, hb]) id (by simp [Sp.step])
      constructor <;> simp only [Sp.step, upd_apply, hgo] at hE hM ⊢
      case ub => exact h.ub
      case here => have := h.here; grind
      case prom => have := h.prom; grind
      case going => have := h.going; grind
      case over => have := h.over; grind
      case ready => have := h.ready; grind
      case moved => have := h.moved; grind
      case husk => have := h.husk; grind
      case frame => exact h.frame
      case back => have := h.back; grind
      case unborn => exact h.unborn
      case unheld => exact h.unheld
      case live => exact h.live
      case waits => have := h.waits; grind
      case tgt => have := h.tgt; grind
      case begunW => have := h.begunW; grind
      case owned => have := h.owned; grind
      case queue => have := h.queue; grind
      case pend => have := h.pend; grind
      case posted => have := h.posted; grind
      case postR => have := h.postR; grind
      case postN => have := h.postN; grind
      case got => have := h.got; grind
      case log => exact logCons h.log hl rfl (if_pos rfl) fun b hb => by simp [hb]
      case once => exact onceCons h.once hl
      case killed => have := h.killed; grind
      case slain => have := h.slain; grind
      case starts => exact h.starts
    | false =>
      have hcoro : ∃ c, p.holds r = .coro c ∧ p.ended c = none := by
        cases hx : p.holds r with
        | none => exact absurd hx (h.here r R hR)
        | coro c =>
          refine ⟨c, rfl, ?_⟩
          cases he : p.ended c with
          | none => rfl
          | some e => have := (h.over r R c e hR hx he).1; rw [hd] at this; simp at this
        | ready v => have := (h.ready r R v hR hx).1; rw [hd] at this; simp at this
        | moved => have := (h.moved r R hR hx).1; rw [hd] at this; simp at this
        | husk => have := (h.husk r R hR hx).1; rw [hd] at this; simp at this
      obtain ⟨c, hx, he⟩ := hcoro
      have hb : p.begun c = false := by
        cases hb : p.begun c with
        | false => rfl
        | true => exact absurd he (ht.2 c hx hb)
      have hp := h.prom r R c hR hx
      have hg := h.going r R c hR hx he
      have hA : R.awaited = none := by
        cases hA : R.awaited with
        | none => rfl
        | some b => have := h.begunW r R b c hR hA hu hx; rw [hb] at this; simp at this
      have hgo : p.going (p.holds r) = some c := by rw [hx]; simp [Sp.going, he]
      have hM : ∀ b g, b ≠ a → Explains p b g → Explains (p.step (.await a r)) b g :=
        fun b g hb h => h.mono (by simp [Sp.step, hb]) id (by simp [Sp.step])
      simp only [Bool.false_eq_true, if_false, hp, hA, St.start, hg.2.2.2, hb]
      constructor <;> simp only [Sp.step, upd_apply, hgo] at hM ⊢
      case ub => exact h.ub
      case here => have := h.here; grind
      case prom => have := h.prom; grind
      case going => have := h.going; grind
      case over => have := h.over; grind
      case ready => have := h.ready; grind
      case moved => have := h.moved; grind
      case husk => have := h.husk; grind
      case frame => have := h.frame; grind
      case back => have := h.back; grind
      case unborn => have := h.unborn; have := h.unheld; grind
      case unheld => exact h.unheld
      case live => have := h.live; grind
      case waits => have := h.waits; grind
      case tgt => have := h.tgt; grind
      case begunW => have := h.begunW; grind
      case owned => have := h.owned; grind
      case queue => have := h.queue; grind
      case pend => have := h.pend; grind
      case posted => have := h.posted; grind
      case postR => have := h.postR; grind
      case postN => have := h.postN; grind
      case got => have := h.got; grind
      case log => have := h.log; grind
      case once => exact h.once
      case killed => have := h.killed; grind
      case slain => have := h.slain; grind
      case starts => have := h.starts; grind

/-- A task that is not done. -/
theorem Inv.notDone (h : Inv p s) {r : Nat} {R : Rec} (hR : s.recv r = some R) (hd : R.done = false) :
    ∃ c, p.holds r = .coro c ∧ p.ended c = none := by
  cases hx : p.holds r with
  | none => exact absurd hx (h.here r R hR)
  | coro c =>
    refine ⟨c, rfl, ?_⟩
    cases he : p.ended c with
    | none => rfl
    | some e => have := (h.over r R c e hR hx he).1; rw [hd] at this; simp at this
  | ready v => have := (h.ready r R v hR hx).1; rw [hd] at this; simp at this
  | moved => have := (h.moved r R hR hx).1; rw [hd] at this; simp at this
  | husk => have := (h.husk r R hR hx).1; rw [hd] at this; simp at this

/-- A task that is awaited is not done. -/
theorem Inv.awaitedGoing (h : Inv p s) {r a : Nat} {R : Rec} (hR : s.recv r = some R) (hA : R.awaited = some a) :
    ∃ c, p.holds r = .coro c ∧ p.ended c = none := by
  have hn : R.awaited ≠ none := by rw [hA]; simp
  cases hx : p.holds r with
  | none => exact absurd hx (h.here r R hR)
  | coro c =>
    refine ⟨c, rfl, ?_⟩
    cases he : p.ended c with
    | none => rfl
    | some e => exact absurd (h.over r R c e hR hx he).2.1 hn
  | ready v => exact absurd (h.ready r R v hR hx).2.1 hn
  | moved => exact absurd (h.moved r R hR hx).2.1 hn
  | husk => exact absurd (h.husk r R hR hx).2.1 hn

theorem Inv.interrupt (h : Inv p s) {a : Nat} (hc : s.can (.interrupt a) = true) (ht : Tidy p s (.interrupt a)) :
    Inv (p.step (.interrupt a)) (s.step (.interrupt a)) := by
  unfold St.step; rw [if_neg (by simp [h.ub, hc])]
  simp only [St.can, St.user] at hc
  cases hw : s.aw a with
  | none => rw [hw] at hc; simp at hc
  | some w =>
    simp only [hw, Bool.and_eq_true] at hc
    obtain ⟨⟨hs, hu⟩, hk⟩ := hc
    cases hR : s.recv w.self with
    | none => rw [hR] at hu; simp at hu
    | some R =>
      simp only [hR, beq_iff_eq] at hu
      have hA := ht w R hw hR
      have hl : ∀ g, (a, g) ∉ s.log := by
        intro g hg
        obtain ⟨w', hw', hg'⟩ := (h.log a g).1 hg
        rw [(h.waits _ R a hR hA).1] at hw'
        simp only [Option.some.injEq] at hw'
        subst hw'; simp at hg'
      obtain ⟨hwa, hk⟩ := h.waits _ R a hR hA
      obtain ⟨c, hx, he⟩ := h.awaitedGoing hR hA
      have hg := h.going _ R c hR hx he
      have hsp : w.spawned = false := by simpa using hs
      simp only [St.interrupt, hw, hR, hA, St.resumeAw, hsp, Bool.false_eq_true, if_false, upd_apply, if_true,
        St.getResult, hg.1]
      have hE : Explains (p.step (.interrupt a)) a (.err .detached) := Or.inl ⟨rfl, by simp [Sp.step]⟩
      have hM : ∀ b g, Explains p b g → Explains (p.step (.interrupt a)) b g :=
        fun b g h => h.mono rfl (by intro h; simp only [Sp.step, upd_apply]; split <;> simp [h]) (fun _ _ => id)
      constructor <;> simp only [Sp.step, upd_apply] at hE hM ⊢
      case ub => exact h.ub
      case here => have := h.here; grind
      case prom => have := h.prom; grind
      case going => have := h.going; grind
      case over => have := h.over; grind
      case ready => have := h.ready; grind
      case moved => have := h.moved; grind
      case husk => have := h.husk; grind
      case frame => have := h.frame; grind
      case back => have := h.back; grind
      case unborn => have := h.unborn; grind
      case unheld => have := h.unheld; grind
      case live => have := h.live; grind
      case waits => have := h.waits; grind
      case tgt => have := h.tgt; grind
      case begunW => have := h.begunW; grind
      case owned => have := h.owned; grind
      case queue => have := h.queue; grind
      case pend => have := h.pend; grind
      case posted => have := h.posted; grind
      case postR => have := h.postR; grind
      case postN => have := h.postN; grind
      case got => have := h.got; grind
      case log => exact logCons h.log hl rfl (if_pos rfl) fun b hb => by simp [hb]
      case once => exact onceCons h.once hl
      case killed => have := h.killed; grind
      case slain => have := h.slain; grind
      case starts => have := h.starts; grind



theorem Inv.finish_val (h : Inv p s) {c v : Nat} (hc : s.can (.finish c (.val v)) = true) :
    Inv (p.step (.finish c (.val v))) (s.step (.finish c (.val v))) := by
  unfold St.step; rw [if_neg (by simp [h.ub, hc])]
  simp only [St.can] at hc
  cases hf : s.frame c with
  | none => rw [hf] at hc; simp at hc
  | some f =>
    simp only [hf, Bool.and_eq_true, Bool.not_eq_eq_eq_not, Bool.not_true] at hc
    obtain ⟨hst, hsk⟩ := hc
    obtain ⟨hb, hbg, -, he⟩ := h.frame c f hf
    have he := he hsk
    have hE : ∀ c' e, p.ended c' = some e → (p.step (.finish c (.val v))).ended c' = some e := by
      intro c' e h'
      simp only [Sp.step, upd_apply]
      rw [if_neg (by rintro rfl; rw [he] at h'; simp at h')]
      exact h'
    have hM : ∀ b g, Explains p b g → Explains (p.step (.finish c (.val v))) b g :=
      fun b g h => h.mono rfl id hE
    have hbeg : p.begun c = true := by rw [← hbg]; exact hst
    cases hrc : f.receiver with
    | none =>
      simp only [St.finish, hf, hrc]
      have hno : ∀ r R, s.recv r = some R → p.holds r ≠ .coro c := by
        intro r R hR hx
        have := (h.going r R c hR hx he).2.2.2
        rw [hf] at this; simp only [Option.some.injEq] at this; subst this; simp at hrc
      constructor <;> simp only [Sp.step, upd_apply] at hM ⊢
      case ub => exact h.ub
      case here => have := h.here; grind
      case prom => have := h.prom; grind
      case going => have := h.going; grind
      case over => have := h.over; grind
      case ready => have := h.ready; grind
      case moved => have := h.moved; grind
      case husk => have := h.husk; grind
      case frame => have := h.frame; grind
      case back => have := h.back; grind
      case unborn => have := h.unborn; grind
      case unheld => have := h.unheld; grind
      case live => have := h.live; grind
      case waits => have := h.waits; grind
      case tgt => have := h.tgt; grind
      case begunW => have := h.begunW; grind
      case owned => have := h.owned; grind
      case queue => have := h.queue; grind
      case pend => have := h.pend; grind
      case posted => have := h.posted; grind
      case postR => have := h.postR; grind
      case postN => have := h.postN; grind
      case got => have := h.got; grind
      case log => have := h.log; grind
      case once => exact h.once
      case killed => have := h.killed; grind
      case slain => have := h.slain; grind
      case starts => have := h.starts; grind
    | some r =>
      obtain ⟨hx, hsome⟩ := h.back c f r hf hrc
      cases hR : s.recv r with
      | none => rw [hR] at hsome; simp at hsome
      | some R =>
        have hg := h.going r R c hR hx he
        have hp := h.prom r R c hR hx
        have huniq : ∀ r' R', s.recv r' = some R' → p.holds r' = .coro c → r' = r := by
          intro r' R' hR' hx'
          have := (h.going r' R' c hR' hx' he).2.2.2
          rw [hf] at this; simp only [Option.some.injEq] at this; subst this; simpa using hrc
        have hG : ∀ x, Gives { R with result := some (some v), done := true, awaited := x } (.out (.val v)) := by
          intro x; simp [Gives, hg]
        have hG' : Gives { R with taken := true, result := some none, done := true, awaited := none } (.out (.val v)) := by
          simp [Gives, hg]
        simp only [St.finish, hf, hrc, hR]
        cases hA : R.awaited with
        | none =>
          simp only
          constructor <;> simp only [Sp.step, upd_apply] at hM ⊢
          case ub => exact h.ub
          case here => have := h.here; grind
          case prom => have := h.prom; grind
          case going => have := h.going; grind
          case over => have := h.over; grind
          case ready => have := h.ready; grind
          case moved => have := h.moved; grind
          case husk => have := h.husk; grind
          case frame => have := h.frame; grind
          case back => have := h.back; grind
          case unborn => have := h.unborn; grind
          case unheld => have := h.unheld; grind
          case live => have := h.live; grind
          case waits => have := h.waits; grind
          case tgt => have := h.tgt; grind
          case begunW => have := h.begunW; grind
          case owned => have := h.owned; grind
          case queue => have := h.queue; grind
          case pend => have := h.pend; grind
          case posted => have := h.posted; grind
          case postR => have := h.postR; grind
          case postN => have := h.postN; grind
          case got => have := h.got; grind
          case log => have := h.log; grind
          case once => exact h.once
          case killed => have := h.killed; grind
          case slain => have := h.slain; grind
          case starts => have := h.starts; grind
        | some a =>
          obtain ⟨hwa, hk⟩ := h.waits r R a hR hA
          have htg := h.tgt r R a c hR hA hx
          have hwu : ∀ r' R', s.recv r' = some R' → R'.awaited = some a → r' = r := by
            intro r' R' hR' hA'
            have := (h.waits r' R' a hR' hA').1
            rw [hwa] at this; simp only [Option.some.injEq, Aw.mk.injEq] at this; exact this.1.symm
          have hl : ∀ g, (a, g) ∉ s.log := by
            intro g hg
            obtain ⟨w', hw', hg'⟩ := (h.log a g).1 hg
            rw [hwa] at hw'
            simp only [Option.some.injEq] at hw'
            subst hw'; simp at hg'
          have hown := h.owned r R
          simp only [St.resumeAw, hwa]
          by_cases ho : R.owner = none
          · have hEa : ∀ g, fits (.out (.val v)) g → Explains (p.step (.finish c (.val v))) a g := by
              intro g hg
              refine Or.inr ?_
              have : (p.step (.finish c (.val v))).target a = .coro c := htg
              rw [this]
              exact ⟨_, by simp [Sp.step], hg⟩
            simp only [ho, ne_eq, not_true_eq_false, decide_false, Bool.false_eq_true, if_false, upd_apply, if_true,
              St.getResult, hg.2.1]
            have hEa := hEa _ (by simp only [fits]; first | exact Or.inl rfl | rfl)
            constructor <;> simp only [Sp.step, upd_apply] at hM hEa ⊢
            case ub => exact h.ub
            case here => have := h.here; grind
            case prom => have := h.prom; grind
            case going => have := h.going; grind
            case over => have := h.over; grind
            case ready => have := h.ready; grind
            case moved => have := h.moved; grind
            case husk => have := h.husk; grind
            case frame => have := h.frame; grind
            case back => have := h.back; grind
            case unborn => have := h.unborn; grind
            case unheld => have := h.unheld; grind
            case live => have := h.live; grind
            case waits => have := h.waits; grind
            case tgt => have := h.tgt; grind
            case begunW => have := h.begunW; grind
            case owned => have := h.owned; grind
            case queue => have := h.queue; grind
            case pend => have := h.pend; grind
            case posted => have := h.posted; grind
            case postR => have := h.postR; grind
            case postN => have := h.postN; grind
            case got => have := h.got; grind
            case log => exact logCons h.log hl rfl (if_pos rfl) fun b hb => by simp [hb]
            case once => exact onceCons h.once hl
            case killed => have := h.killed; grind
            case slain => have := h.slain; grind
            case starts => have := h.starts; grind
          · simp only [ne_eq, ho, not_false_eq_true, decide_true, if_true]
            have hoa : R.owner = some a := by
              obtain ⟨-, R2, h1, -, h2⟩ := h.pend a _ hwa rfl hk rfl
              simp only [hR, Option.some.injEq] at h1; subst h1
              exact h2.resolve_left ho
            constructor <;> simp only [Sp.step, upd_apply] at hM ⊢
            case ub => exact h.ub
            case here => have := h.here; grind
            case prom => have := h.prom; grind
            case going => have := h.going; grind
            case over => have := h.over; grind
            case ready => have := h.ready; grind
            case moved => have := h.moved; grind
            case husk => have := h.husk; grind
            case frame => have := h.frame; grind
            case back => have := h.back; grind
            case unborn => have := h.unborn; grind
            case unheld => have := h.unheld; grind
            case live => have := h.live; grind
            case waits => have := h.waits; grind
            case tgt => have := h.tgt; grind
            case begunW => have := h.begunW; grind
            case owned => have := h.owned; grind
            case queue => have := h.queue; grind
            case pend => have := h.pend; grind
            case posted => have := h.posted; grind
            case postR => have := h.postR; grind
            case postN => 
              intro b w hb hg' hp' hr
              by_cases hba : b = a
              · rw [if_pos hba] at hb; simp only [Option.some.injEq] at hb; subst hb
                subst hba
                exact ⟨_, if_pos rfl, hoa, rfl⟩
              · rw [if_neg hba] at hb
                obtain ⟨R2, h1, h2, h3⟩ := h.postN b w hb hg' hp' hr
                refine ⟨R2, ?_, h2, h3⟩
                rw [if_neg]
                · exact h1
                · intro heq
                  rw [heq, hR] at h1; simp only [Option.some.injEq] at h1; subst h1
                  rw [hg.1] at h3; simp at h3
            case got => have := h.got; grind
            case log => have := h.log; grind
            case once => exact h.once
            case killed => have := h.killed; grind
            case slain => have := h.slain; grind
            case starts => have := h.starts; grind

theorem Inv.finish_exc (h : Inv p s) {c v : Nat} (hc : s.can (.finish c (.exc v)) = true) :
    Inv (p.step (.finish c (.exc v))) (s.step (.finish c (.exc v))) := by
  unfold St.step; rw [if_neg (by simp [h.ub, hc])]
  simp only [St.can] at hc
  cases hf : s.frame c with
  | none => rw [hf] at hc; simp at hc
  | some f =>
    simp only [hf, Bool.and_eq_true, Bool.not_eq_eq_eq_not, Bool.not_true] at hc
    obtain ⟨hst, hsk⟩ := hc
    obtain ⟨hb, hbg, -, he⟩ := h.frame c f hf
    have he := he hsk
    have hE : ∀ c' e, p.ended c' = some e → (p.step (.finish c (.exc v))).ended c' = some e := by
      intro c' e h'
      simp only [Sp.step, upd_apply]
      rw [if_neg (by rintro rfl; rw [he] at h'; simp at h')]
      exact h'
    have hM : ∀ b g, Explains p b g → Explains (p.step (.finish c (.exc v))) b g :=
      fun b g h => h.mono rfl id hE
    have hbeg : p.begun c = true := by rw [← hbg]; exact hst
    cases hrc : f.receiver with
    | none =>
      simp only [St.finish, hf, hrc]
      have hno : ∀ r R, s.recv r = some R → p.holds r ≠ .coro c := by
        intro r R hR hx
        have := (h.going r R c hR hx he).2.2.2
        rw [hf] at this; simp only [Option.some.injEq] at this; subst this; simp at hrc
      constructor <;> simp only [Sp.step, upd_apply] at hM ⊢
      case ub => exact h.ub
      case here => have := h.here; grind
      case prom => have := h.prom; grind
      case going => have := h.going; grind
      case over => have := h.over; grind
      case ready => have := h.ready; grind
      case moved => have := h.moved; grind
      case husk => have := h.husk; grind
      case frame => have := h.frame; grind
      case back => have := h.back; grind
      case unborn => have := h.unborn; grind
      case unheld => have := h.unheld; grind
      case live => have := h.live; grind
      case waits => have := h.waits; grind
      case tgt => have := h.tgt; grind
      case begunW => have := h.begunW; grind
      case owned => have := h.owned; grind
      case queue => have := h.queue; grind
      case pend => have := h.pend; grind
      case posted => have := h.posted; grind
      case postR => have := h.postR; grind
      case postN => have := h.postN; grind
      case got => have := h.got; grind
      case log => have := h.log; grind
      case once => exact h.once
      case killed => have := h.killed; grind
      case slain => have := h.slain; grind
      case starts => have := h.starts; grind
    | some r =>
      obtain ⟨hx, hsome⟩ := h.back c f r hf hrc
      cases hR : s.recv r with
      | none => rw [hR] at hsome; simp at hsome
      | some R =>
        have hg := h.going r R c hR hx he
        have hp := h.prom r R c hR hx
        have huniq : ∀ r' R', s.recv r' = some R' → p.holds r' = .coro c → r' = r := by
          intro r' R' hR' hx'
          have := (h.going r' R' c hR' hx' he).2.2.2
          rw [hf] at this; simp only [Option.some.injEq] at this; subst this; simpa using hrc
        have hG : ∀ x, Gives { R with exc := some (.user v), done := true, awaited := x } (.out (.exc v)) := by
          intro x; simp [Gives, hg]
        have hG' : Gives { R with exc := some (.user v), taken := true, done := true, awaited := none } (.out (.exc v)) := by
          simp [Gives, hg]
        simp only [St.finish, hf, hrc, hR]
        cases hA : R.awaited with
        | none =>
          simp only
          constructor <;> simp only [Sp.step, upd_apply] at hM ⊢
          case ub => exact h.ub
          case here => have := h.here; grind
          case prom => have := h.prom; grind
          case going => have := h.going; grind
          case over => have := h.over; grind
          case ready => have := h.ready; grind
          case moved => have := h.moved; grind
          case husk => have := h.husk; grind
          case frame => have := h.frame; grind
          case back => have := h.back; grind
          case unborn => have := h.unborn; grind
          case unheld => have := h.unheld; grind
          case live => have := h.live; grind
          case waits => have := h.waits; grind
          case tgt => have := h.tgt; grind
          case begunW => have := h.begunW; grind
          case owned => have := h.owned; grind
          case queue => have := h.queue; grind
          case pend => have := h.pend; grind
          case posted => have := h.posted; grind
          case postR => have := h.postR; grind
          case postN => have := h.postN; grind
          case got => have := h.got; grind
          case log => have := h.log; grind
          case once => exact h.once
          case killed => have := h.killed; grind
          case slain => have := h.slain; grind
          case starts => have := h.starts; grind
        | some a =>
          obtain ⟨hwa, hk⟩ := h.waits r R a hR hA
          have htg := h.tgt r R a c hR hA hx
          have hwu : ∀ r' R', s.recv r' = some R' → R'.awaited = some a → r' = r := by
            intro r' R' hR' hA'
            have := (h.waits r' R' a hR' hA').1
            rw [hwa] at this; simp only [Option.some.injEq, Aw.mk.injEq] at this; exact this.1.symm
          have hl : ∀ g, (a, g) ∉ s.log := by
            intro g hg
            obtain ⟨w', hw', hg'⟩ := (h.log a g).1 hg
            rw [hwa] at hw'
            simp only [Option.some.injEq] at hw'
            subst hw'; simp at hg'
          have hown := h.owned r R
          simp only [St.resumeAw, hwa]
          by_cases ho : R.owner = none
          · have hEa : ∀ g, fits (.out (.exc v)) g → Explains (p.step (.finish c (.exc v))) a g := by
              intro g hg
              refine Or.inr ?_
              have : (p.step (.finish c (.exc v))).target a = .coro c := htg
              rw [this]
              exact ⟨_, by simp [Sp.step], hg⟩
            simp only [ho, ne_eq, not_true_eq_false, decide_false, Bool.false_eq_true, if_false, upd_apply, if_true,
              St.getResult, hg.2.1]
            have hEa := hEa _ (by simp only [fits]; first | exact Or.inl rfl | rfl)
            constructor <;> simp only [Sp.step, upd_apply] at hM hEa ⊢
            case ub => exact h.ub
            case here => have := h.here; grind
            case prom => have := h.prom; grind
            case going => have := h.going; grind
            case over => have := h.over; grind
            case ready => have := h.ready; grind
            case moved => have := h.moved; grind
            case husk => have := h.husk; grind
            case frame => have := h.frame; grind
            case back => have := h.back; grind
            case unborn => have := h.unborn; grind
            case unheld => have := h.unheld; grind
            case live => have := h.live; grind
            case waits => have := h.waits; grind
            case tgt => have := h.tgt; grind
            case begunW => have := h.begunW; grind
            case owned => have := h.owned; grind
            case queue => have := h.queue; grind
            case pend => have := h.pend; grind
            case posted => have := h.posted; grind
            case postR => have := h.postR; grind
            case postN => have := h.postN; grind
            case got => have := h.got; grind
            case log => exact logCons h.log hl rfl (if_pos rfl) fun b hb => by simp [hb]
            case once => exact onceCons h.once hl
            case killed => have := h.killed; grind
            case slain => have := h.slain; grind
            case starts => have := h.starts; grind
          · simp only [ne_eq, ho, not_false_eq_true, decide_true, if_true]
            have hoa : R.owner = some a := by
              obtain ⟨-, R2, h1, -, h2⟩ := h.pend a _ hwa rfl hk rfl
              simp only [hR, Option.some.injEq] at h1; subst h1
              exact h2.resolve_left ho
            constructor <;> simp only [Sp.step, upd_apply] at hM ⊢
            case ub => exact h.ub
            case here => have := h.here; grind
            case prom => have := h.prom; grind
            case going => have := h.going; grind
            case over => have := h.over; grind
            case ready => have := h.ready; grind
            case moved => have := h.moved; grind
            case husk => have := h.husk; grind
            case frame => have := h.frame; grind
            case back => have := h.back; grind
            case unborn => have := h.unborn; grind
            case unheld => have := h.unheld; grind
            case live => have := h.live; grind
            case waits => have := h.waits; grind
            case tgt => have := h.tgt; grind
            case begunW => have := h.begunW; grind
            case owned => have := h.owned; grind
            case queue => have := h.queue; grind
            case pend => have := h.pend; grind
            case posted => have := h.posted; grind
            case postR => have := h.postR; grind
            case postN => 
              intro b w hb hg' hp' hr
              by_cases hba : b = a
              · rw [if_pos hba] at hb; simp only [Option.some.injEq] at hb; subst hb
                subst hba
                exact ⟨_, if_pos rfl, hoa, rfl⟩
              · rw [if_neg hba] at hb
                obtain ⟨R2, h1, h2, h3⟩ := h.postN b w hb hg' hp' hr
                refine ⟨R2, ?_, h2, h3⟩
                rw [if_neg]
                · exact h1
                · intro heq
                  rw [heq, hR] at h1; simp only [Option.some.injEq] at h1; subst h1
                  rw [hg.1] at h3; simp at h3
            case got => have := h.got; grind
            case log => have := h.log; grind
            case once => exact h.once
            case killed => have := h.killed; grind
            case slain => have := h.slain; grind
            case starts => have := h.starts; grind

theorem Inv.kill (h : Inv p s) {c : Nat} (hc : s.can (.kill c) = true) :
    Inv (p.step (.kill c)) (s.step (.kill c)) := by
  unfold St.step; rw [if_neg (by simp [h.ub, hc])]
  simp only [St.can] at hc
  cases hf : s.frame c with
  | none => rw [hf] at hc; simp at hc
  | some f =>
    simp only [hf, Bool.and_eq_true, Bool.not_eq_eq_eq_not, Bool.not_true] at hc
    obtain ⟨hst, hsk⟩ := hc
    obtain ⟨hb, hbg, -, he⟩ := h.frame c f hf
    have he := he hsk
    have hE : ∀ c' e, p.ended c' = some e → (p.step (.kill c)).ended c' = some e := by
      intro c' e h'
      simp only [Sp.step, upd_apply]
      rw [if_neg (by rintro rfl; rw [he] at h'; simp at h')]
      exact h'
    have hM : ∀ b g, Explains p b g → Explains (p.step (.kill c)) b g :=
      fun b g h => h.mono rfl id hE
    cases hrc : f.receiver with
    | none =>
      simp only [St.kill, hf, hrc]
      have hno : ∀ r R, s.recv r = some R → p.holds r ≠ .coro c := by
        intro r R hR hx
        have := (h.going r R c hR hx he).2.2.2
        rw [hf] at this; simp only [Option.some.injEq] at this; subst this; simp at hrc
      constructor <;> simp only [Sp.step, upd_apply] at hM ⊢
      case ub => exact h.ub
      case here => have := h.here; grind
      case prom => have := h.prom; grind
      case going => have := h.going; grind
      case over => have := h.over; grind
      case ready => have := h.ready; grind
      case moved => have := h.moved; grind
      case husk => have := h.husk; grind
      case frame => have := h.frame; grind
      case back => have := h.back; grind
      case unborn => have := h.unborn; grind
      case unheld => have := h.unheld; grind
      case live => have := h.live; grind
      case waits => have := h.waits; grind
      case tgt => have := h.tgt; grind
      case begunW => have := h.begunW; grind
      case owned => have := h.owned; grind
      case queue => have := h.queue; grind
      case pend => have := h.pend; grind
      case posted => have := h.posted; grind
      case postR => have := h.postR; grind
      case postN => have := h.postN; grind
      case got => have := h.got; grind
      case log => have := h.log; grind
      case once => exact h.once
      case killed => have := h.killed; grind
      case slain => have := h.slain; grind
      case starts => have := h.starts; grind
    | some r =>
      obtain ⟨hx, hsome⟩ := h.back c f r hf hrc
      cases hR : s.recv r with
      | none => rw [hR] at hsome; simp at hsome
      | some R =>
        have hg := h.going r R c hR hx he
        have hp := h.prom r R c hR hx
        have huniq : ∀ r' R', s.recv r' = some R' → p.holds r' = .coro c → r' = r := by
          intro r' R' hR' hx'
          have := (h.going r' R' c hR' hx' he).2.2.2
          rw [hf] at this; simp only [Option.some.injEq] at this; subst this; simpa using hrc
        have hG : ∀ x, Gives { R with exc := some .unexpected, done := true, awaited := x } .killed := by
          intro x; simp [Gives]
        simp only [St.kill, hf, hrc, hR, hg.1, hg.2.1, and_self, if_true]
        by_cases ho : R.owner = none
        · simp only [ho, if_true]
          cases hA : R.awaited with
          | none =>
            simp only
            constructor <;> simp only [Sp.step, upd_apply] at hM ⊢
            case ub => exact h.ub
            case here => have := h.here; grind
            case prom => have := h.prom; grind
            case going => have := h.going; grind
            case over => have := h.over; grind
            case ready => have := h.ready; grind
            case moved => have := h.moved; grind
            case husk => have := h.husk; grind
            case frame => have := h.frame; grind
            case back => have := h.back; grind
            case unborn => have := h.unborn; grind
            case unheld => have := h.unheld; grind
            case live => have := h.live; grind
            case waits => have := h.waits; grind
            case tgt => have := h.tgt; grind
            case begunW => have := h.begunW; grind
            case owned => have := h.owned; grind
            case queue => have := h.queue; grind
            case pend => have := h.pend; grind
            case posted => have := h.posted; grind
            case postR => have := h.postR; grind
            case postN => have := h.postN; grind
            case got => have := h.got; grind
            case log => have := h.log; grind
            case once => exact h.once
            case killed => have := h.killed; grind
            case slain => have := h.slain; grind
            case starts => have := h.starts; grind
          | some a =>
            obtain ⟨hwa, hk⟩ := h.waits r R a hR hA
            have hwu : ∀ r' R', s.recv r' = some R' → R'.awaited = some a → r' = r := by
              intro r' R' hR' hA'
              have := (h.waits r' R' a hR' hA').1
              rw [hwa] at this; simp only [Option.some.injEq, Aw.mk.injEq] at this; exact this.1.symm
            simp only
            constructor <;> simp only [Sp.step, upd_apply] at hM ⊢
            case ub => exact h.ub
            case here => have := h.here; grind
            case prom => have := h.prom; grind
            case going => have := h.going; grind
            case over => have := h.over; grind
            case ready => have := h.ready; grind
            case moved => have := h.moved; grind
            case husk => have := h.husk; grind
            case frame => have := h.frame; grind
            case back => have := h.back; grind
            case unborn => have := h.unborn; grind
            case unheld => have := h.unheld; grind
            case live => have := h.live; grind
            case waits => have := h.waits; grind
            case tgt => have := h.tgt; grind
            case begunW => have := h.begunW; grind
            case owned => have := h.owned; grind
            case queue => have := h.queue; grind
            case pend => have := h.pend; grind
            case posted => have := h.posted; grind
            case postR => have := h.postR; grind
            case postN => have := h.postN; grind
            case got => have := h.got; grind
            case log => have := h.log; grind
            case once => exact h.once
            case killed => have := h.killed; grind
            case slain => have := h.slain; grind
            case starts => have := h.starts; grind
        · simp only [ho, if_false]
          obtain ⟨a, hoa⟩ := Option.ne_none_iff_exists'.1 ho
          have hA : R.awaited = some a := by
            have := (h.owned r R a hR hoa).2.2.2; rw [hg.1] at this; simpa using this
          obtain ⟨hwa, hk⟩ := h.waits r R a hR hA
          have hwu : ∀ r' R', s.recv r' = some R' → R'.awaited = some a → r' = r := by
            intro r' R' hR' hA'
            have := (h.waits r' R' a hR' hA').1
            rw [hwa] at this; simp only [Option.some.injEq, Aw.mk.injEq] at this; exact this.1.symm
          have hou : ∀ r' R', s.recv r' = some R' → R'.owner = some a → r' = r := by
            intro r' R' hR' hA'
            have := (h.owned r' R' a hR' hA').2.2.2
            rcases this with h1 | h1
            · exact hwu r' R' hR' h1.1
            · rw [hwa] at h1; simp at h1
          have hbk : ∀ c' f, s.frame c' = some f → f.receiver = some r → c' = c := by
            intro c' f' hf' hr'
            have := (h.back c' f' r hf' hr').1
            rw [hx] at this; simpa using this.symm
          simp only [hA]
          constructor <;> simp only [Sp.step, upd_apply] at hM ⊢
          case ub => exact h.ub
          case here => have := h.here; grind
          case prom => have := h.prom; grind
          case going => have := h.going; grind
          case over => have := h.over; grind
          case ready => have := h.ready; grind
          case moved => have := h.moved; grind
          case husk => have := h.husk; grind
          case frame => have := h.frame; grind
          case back => have := h.back; grind
          case unborn => have := h.unborn; grind
          case unheld => have := h.unheld; grind
          case live => have := h.live; grind
          case waits => have := h.waits; grind
          case tgt => have := h.tgt; grind
          case begunW => have := h.begunW; grind
          case owned => have := h.owned; grind
          case queue => have := h.queue; grind
          case pend => have := h.pend; grind
          case posted => have := h.posted; grind
          case postR => have := h.postR; grind
          case postN => have := h.postN; grind
          case got => have := h.got; grind
          case log => have := h.log; grind
          case once => exact h.once
          case killed => have := h.killed; grind
          case slain => have := h.slain; have htg := h.tgt r R a c hR hA hx; grind
          case starts => have := h.starts; grind

theorem Inv.begin (h : Inv p s) {c : Nat} (hc : s.can (.begin c) = true) :
    Inv (p.step (.begin c)) (s.step (.begin c)) := by
  unfold St.step; rw [if_neg (by simp [h.ub, hc])]
  simp only [St.can] at hc
  obtain ⟨hb, he, r, R, hf, hR, ho⟩ := h.queue c hc
  have hM : ∀ b g, Explains p b g → Explains (p.step (.begin c)) b g :=
    fun b g h => h.mono rfl id (fun _ _ => id)
  simp only [St.start, hf, Bool.false_eq_true, if_false]
  have hbk := h.back c _ r hf rfl
  have hbn := (h.frame c _ hf).1
  constructor <;> simp only [Sp.step, upd_apply] at hM ⊢
  case ub => exact h.ub
  case here => have := h.here; grind
  case prom => have := h.prom; grind
  case going => have := h.going; grind
  case over => have := h.over; grind
  case ready => have := h.ready; grind
  case moved => have := h.moved; grind
  case husk => have := h.husk; grind
  case frame => have := h.frame; grind
  case back => have := h.back; grind
  case unborn => have := h.unborn; grind
  case unheld => have := h.unheld; grind
  case live => have := h.live; grind
  case waits => have := h.waits; grind
  case tgt => have := h.tgt; grind
  case begunW => have := h.begunW; grind
  case owned => have := h.owned; grind
  case queue => have := h.queue; grind
  case pend => have := h.pend; grind
  case posted => have := h.posted; grind
  case postR => have := h.postR; grind
  case postN => have := h.postN; grind
  case got => have := h.got; grind
  case log => have := h.log; grind
  case once => exact h.once
  case killed => have := h.killed; grind
  case slain => have := h.slain; grind
  case starts => have := h.starts; grind

theorem Inv.cancel (h : Inv p s) {a : Nat} (hc : s.can (.cancel a) = true) :
    Inv (p.step (.cancel a)) (s.step (.cancel a)) := by
  unfold St.step; rw [if_neg (by simp [h.ub, hc])]
  simp only [St.can] at hc
  cases hw : s.aw a with
  | none => rw [hw] at hc; simp at hc
  | some w =>
    simp only [hw, Bool.and_eq_true, beq_iff_eq, Bool.not_eq_eq_eq_not, Bool.not_true, List.contains_eq_mem,
      decide_eq_false_iff_not] at hc
    obtain ⟨⟨⟨h1, h2⟩, h3⟩, h4⟩ := hc
    have hR : ∃ R, s.recv w.self = some R := by
      cases hp : w.posted with
      | true => obtain ⟨R, hR, -⟩ := h.postN a w hw h3 hp h2; exact ⟨R, hR⟩
      | false => obtain ⟨-, R, hR, -⟩ := h.pend a w hw h3 h4 hp; exact ⟨R, hR⟩
    obtain ⟨R, hR⟩ := hR
    simp only [St.cancel, hw, hR]
    cases hd : R.done with
    | true => exact h
    | false =>
      obtain ⟨c, hx, he⟩ := h.notDone hR hd
      have hp := h.prom _ R c hR hx
      have hg := h.going _ R c hR hx he
      simp only [Bool.false_eq_true, if_false, hp, hg.2.2.2]
      constructor <;> simp only [Sp.step]
      case ub => exact h.ub
      case here => exact h.here
      case prom => exact h.prom
      case going => exact h.going
      case over => exact h.over
      case ready => exact h.ready
      case moved => exact h.moved
      case husk => exact h.husk
      case frame => exact h.frame
      case back => exact h.back
      case unborn => exact h.unborn
      case unheld => exact h.unheld
      case live => exact h.live
      case waits => exact h.waits
      case tgt => exact h.tgt
      case begunW => exact h.begunW
      case owned => exact h.owned
      case queue => exact h.queue
      case pend => exact h.pend
      case posted => exact h.posted
      case postR => exact h.postR
      case postN => exact h.postN
      case got => exact h.got
      case log => exact h.log
      case once => exact h.once
      case killed => exact h.killed
      case slain => have := h.slain; grind
      case starts => exact h.starts

theorem Inv.deliver (h : Inv p s) {a : Nat} (hc : s.can (.deliver a) = true) :
    Inv (p.step (.deliver a)) (s.step (.deliver a)) := by
  unfold St.step; rw [if_neg (by simp [h.ub, hc])]
  simp only [St.can] at hc
  cases hw : s.aw a with
  | none => rw [hw] at hc; simp at hc
  | some w =>
    simp only [hw, Bool.and_eq_true, beq_iff_eq] at hc
    obtain ⟨hp, hg⟩ := hc
    obtain ⟨hsp, hk⟩ := h.posted a w hw hg hp
    have hwu : ∀ r' R', s.recv r' = some R' → R'.awaited ≠ some a := by
      intro r' R' hR' hA'
      have := (h.waits r' R' a hR' hA').1
      rw [hw] at this; simp only [Option.some.injEq] at this; subst this; simp at hp
    have hl : ∀ g, (a, g) ∉ s.log := by
      intro g hg'
      obtain ⟨w', hw', hg'⟩ := (h.log a g).1 hg'
      rw [hw] at hw'
      simp only [Option.some.injEq] at hw'
      subst hw'; rw [hg] at hg'; simp at hg'
    cases hr : w.ready with
    | some g =>
      have hE := h.postR a w g hw hg hp hr
      have hou : ∀ r' R', s.recv r' = some R' → R'.owner ≠ some a := by
        intro r' R' hR' hA'
        rcases (h.owned r' R' a hR' hA').2.2.2 with h1 | h1
        · exact hwu r' R' hR' h1.1
        · rw [hw] at h1; simp only [Option.some.injEq] at h1; rw [h1.2] at hr; simp at hr
      simp only [St.deliver, hw, hr]
      constructor <;> simp only [Sp.step, upd_apply]
      case ub => exact h.ub
      case here => have := h.here; grind
      case prom => have := h.prom; grind
      case going => have := h.going; grind
      case over => have := h.over; grind
      case ready => have := h.ready; grind
      case moved => have := h.moved; grind
      case husk => have := h.husk; grind
      case frame => have := h.frame; grind
      case back => have := h.back; grind
      case unborn => have := h.unborn; grind
      case unheld => have := h.unheld; grind
      case live => have := h.live; grind
      case waits => have := h.waits; grind
      case tgt => have := h.tgt; grind
      case begunW => have := h.begunW; grind
      case owned => have := h.owned; grind
      case queue => have := h.queue; grind
      case pend => have := h.pend; grind
      case posted => have := h.posted; grind
      case postR => have := h.postR; grind
      case postN => have := h.postN; grind
      case got => have := h.got; grind
      case log => exact logCons h.log hl rfl (if_pos rfl) fun b hb => by simp [hb]
      case once => exact onceCons h.once hl
      case killed => have := h.killed; grind
      case slain => have := h.slain; grind
      case starts => have := h.starts; grind
    | none =>
      obtain ⟨R, hR, ho, hd⟩ := h.postN a w hw hg hp hr
      obtain ⟨⟨c, hx, htg⟩, -, htk, -⟩ := h.owned _ R a hR ho
      have hou : ∀ r' R', s.recv r' = some R' → R'.owner = some a → r' = w.self := by
        intro r' R' hR' hA'
        rcases (h.owned r' R' a hR' hA').2.2.2 with h1 | h1
        · exact absurd h1.1 (hwu r' R' hR')
        · rw [hw] at h1; simp only [Option.some.injEq] at h1; rw [h1.2]
      have hes : ∃ e, p.ended c = some e := by
        cases he : p.ended c with
        | none => have := (h.going _ R c hR hx he).1; rw [hd] at this; simp at this
        | some e => exact ⟨e, rfl⟩
      obtain ⟨e, he⟩ := hes
      have hG := (h.over _ R c e hR hx he).2.2
      have hqu : ∀ c', s.queue c' = true → s.frame c' ≠ some ⟨some w.self, false, false⟩ := by
        intro c' hq hf
        have h1 := (h.back c' _ _ hf rfl).1
        rw [hx] at h1; simp only [Holds.coro.injEq] at h1; subst h1
        rw [(h.queue _ hq).2.1] at he; simp at he
      have hbk : ∀ c' f, s.frame c' = some f → f.receiver ≠ some w.self := by
        intro c' f hf hrc
        have h1 := (h.back c' f _ hf hrc).1
        rw [hx] at h1; simp only [Holds.coro.injEq] at h1; subst h1
        obtain ⟨-, -, h2, h3⟩ := h.frame _ f hf
        cases hsk : f.stuck with
        | true => rw [h2 hsk] at hrc; simp at hrc
        | false => rw [h3 hsk] at he; simp at he
      have hE : ∀ g, fits e g → Explains p a g := by
        intro g hg
        refine Or.inr ?_
        rw [htg]
        exact ⟨_, he, hg⟩
      simp only [St.deliver, hw, hr, hR]
      have hE := hE (St.handed R) (by
        rcases e with (v | x) | _ <;> simp only [Gives, htk] at hG <;> simp [fits, hG, St.handed])
      constructor <;> simp only [Sp.step, upd_apply]
      case ub => exact h.ub
      case here => have := h.here; grind
      case prom => have := h.prom; grind
      case going => have := h.going; grind
      case over => have := h.over; grind
      case ready => have := h.ready; grind
      case moved => have := h.moved; grind
      case husk => have := h.husk; grind
      case frame => have := h.frame; grind
      case back => have := h.back; grind
      case unborn => have := h.unborn; grind
      case unheld => have := h.unheld; grind
      case live => have := h.live; grind
      case waits => have := h.waits; grind
      case tgt => have := h.tgt; grind
      case begunW => have := h.begunW; grind
      case owned => have := h.owned; grind
      case queue => have := h.queue; grind
      case pend => have := h.pend; grind
      case posted => have := h.posted; grind
      case postR => have := h.postR; grind
      case postN => have := h.postN; grind
      case got => have := h.got; grind
      case log => exact logCons h.log hl rfl (if_pos rfl) fun b hb => by simp [hb]
      case once => exact onceCons h.once hl
      case killed => have := h.killed; grind
      case slain => have := h.slain; grind
      case starts => have := h.starts; grind

/-- Whether a task goes on. -/
theorem Inv.isGoing (h : Inv p s) {r : Nat} {R : Rec} (hR : s.recv r = some R) :
    (R.done = true ∧ p.going (p.holds r) = none ∧ p.left (p.holds r) = .husk ∧ ∀ c, p.holds r = .coro c → p.ended c ≠ none) ∨
    ∃ c, R.done = false ∧ p.holds r = .coro c ∧ p.ended c = none ∧ p.going (p.holds r) = some c ∧ p.left (p.holds r) = .moved := by
  cases hd : R.done with
  | true =>
    left
    cases hx : p.holds r with
    | coro c =>
      have he : p.ended c ≠ none := by
        intro he; have := (h.going r R c hR hx he).1; rw [hd] at this; simp at this
      simp [Sp.going, Sp.left, he]
    | _ => simp [Sp.going, Sp.left]
  | false =>
    right
    obtain ⟨c, hx, he⟩ := h.notDone hR hd
    exact ⟨c, rfl, hx, he, by simp [Sp.going, hx, he], by simp [Sp.left, hx, he]⟩

theorem Inv.moveC (h : Inv p s) {r r' : Nat} (hc : s.can (.moveC r r') = true) (ht : Tidy p s (.moveC r r')) :
    Inv (p.step (.moveC r r')) (s.step (.moveC r r')) := by
  unfold St.step; rw [if_neg (by simp [h.ub, hc])]
  simp only [St.can, St.user, Bool.and_eq_true, Option.isNone_iff_eq_none] at hc
  obtain ⟨hu, hr'⟩ := hc
  cases hR : s.recv r with
  | none => rw [hR] at hu; simp at hu
  | some R =>
    simp only [hR, beq_iff_eq] at hu
    have hA := ht R hR
    have hne : r ≠ r' := by rintro rfl; rw [hR] at hr'; simp at hr'
    have hM : ∀ b g, Explains p b g → Explains (p.step (.moveC r r')) b g :=
      fun b g h => h.mono rfl id (fun _ _ => id)
    have hx0 := h.here r R hR
    have hpw : ∀ a w, s.aw a = some w → w.got = none → a ∉ s.killed → w.posted = false → w.self ≠ r := by
      intro a w h1 h2 h3 h4 h5
      obtain ⟨-, R2, h6, h7, -⟩ := h.pend a w h1 h2 h3 h4
      rw [h5, hR] at h6; simp only [Option.some.injEq] at h6; subst h6; rw [hA] at h7; simp at h7
    simp only [St.moveConstruct, hR]
    rcases h.isGoing hR with ⟨hd, hgo, hlf, hen⟩ | ⟨c, hd, hx, he, hgo, hlf⟩
    · rw [if_neg (by simp [hd])]
      have hbk : ∀ c f, s.frame c = some f → f.receiver ≠ some r := by
        intro c f hf hrc
        have := (h.back c f r hf hrc).1
        obtain ⟨-, -, h2, h3⟩ := h.frame c f hf
        cases hsk : f.stuck with
        | true => rw [h2 hsk] at hrc; simp at hrc
        | false => exact hen c this (h3 hsk)
      constructor <;> simp only [Sp.step, upd_apply, hlf] at hM ⊢
      case ub => exact h.ub
      case here => have := h.here; grind
      case prom => have := h.prom; grind
      case going => have := h.going; grind
      case over => have := h.over; grind
      case ready => have := h.ready; grind
      case moved => have := h.moved; grind
      case husk => have := h.husk; grind
      case frame => have := h.frame; grind
      case back => have := h.back; grind
      case unborn => have := h.unborn; grind
      case unheld => have := h.unheld; grind
      case live => have := h.live; grind
      case waits => have := h.waits; grind
      case tgt => have := h.tgt; grind
      case begunW => have := h.begunW; grind
      case owned => have := h.owned; grind
      case queue => have := h.queue; grind
      case pend => have := h.pend; grind
      case posted => have := h.posted; grind
      case postR => have := h.postR; grind
      case postN => have := h.postN; grind
      case got => have := h.got; grind
      case log => have := h.log; grind
      case once => exact h.once
      case killed => have := h.killed; grind
      case slain => have := h.slain; grind
      case starts => have := h.starts; grind
    · have hp := h.prom r R c hR hx
      have hg := h.going r R c hR hx he
      have hbk : ∀ c' f, s.frame c' = some f → f.receiver = some r → c' = c := by
        intro c' f' hf' hr'
        have := (h.back c' f' r hf' hr').1
        rw [hx] at this; simpa using this.symm
      have huniq : ∀ r' R', s.recv r' = some R' → p.holds r' = .coro c → r' = r := by
        intro r' R' hR' hx'
        have := (h.going r' R' c hR' hx' he).2.2.2
        rw [hg.2.2.2] at this; simpa using this.symm
      rw [if_pos ⟨hd, hg.2.1⟩]
      simp only [hp, hg.2.2.2]
      constructor <;> simp only [Sp.step, upd_apply, hlf] at hM ⊢
      case ub => exact h.ub
      case here => have := h.here; grind
      case prom => have := h.prom; grind
      case going => have := h.going; grind
      case over => have := h.over; grind
      case ready => have := h.ready; grind
      case moved => have := h.moved; grind
      case husk => have := h.husk; grind
      case frame => have := h.frame; grind
      case back => have := h.back; grind
      case unborn => have := h.unborn; grind
      case unheld => have := h.unheld; grind
      case live => have := h.live; grind
      case waits => have := h.waits; grind
      case tgt => have := h.tgt; grind
      case begunW => have := h.begunW; grind
      case owned => have := h.owned; grind
      case queue => have := h.queue; grind
      case pend => have := h.pend; grind
      case posted => have := h.posted; grind
      case postR => have := h.postR; grind
      case postN => have := h.postN; grind
      case got => have := h.got; grind
      case log => have := h.log; grind
      case once => exact h.once
      case killed => have := h.killed; grind
      case slain => have := h.slain; grind
      case starts => have := h.starts; grind

theorem Inv.drop (h : Inv p s) {r : Nat} (hc : s.can (.drop r) = true) (ht : Tidy p s (.drop r)) :
    Inv (p.step (.drop r)) (s.step (.drop r)) := by
  unfold St.step; rw [if_neg (by simp [h.ub, hc])]
  simp only [St.can, St.user] at hc
  cases hR : s.recv r with
  | none => rw [hR] at hc; simp at hc
  | some R =>
    simp only [hR, beq_iff_eq] at hc
    have hA := ht R hR
    have hx0 := h.here r R hR
    have hpw : ∀ a w, s.aw a = some w → w.got = none → a ∉ s.killed → w.posted = false → w.self ≠ r := by
      intro a w h1 h2 h3 h4 h5
      obtain ⟨-, R2, h6, h7, -⟩ := h.pend a w h1 h2 h3 h4
      rw [h5, hR] at h6; simp only [Option.some.injEq] at h6; subst h6; rw [hA] at h7; simp at h7
    simp only [St.destroyRec, hR, hA]
    rcases h.isGoing hR with ⟨hd, hgo, hlf, hen⟩ | ⟨c, hd, hx, he, hgo, hlf⟩
    · rw [if_pos (by simp [hd])]
      have hM : ∀ b g, Explains p b g → Explains (p.step (.drop r)) b g :=
        fun b g h => h.mono rfl id (fun _ _ => by simp only [Sp.step, hgo]; exact id)
      have hbk : ∀ c f, s.frame c = some f → f.receiver ≠ some r := by
        intro c f hf hrc
        have := (h.back c f r hf hrc).1
        obtain ⟨-, -, h2, h3⟩ := h.frame c f hf
        cases hsk : f.stuck with
        | true => rw [h2 hsk] at hrc; simp at hrc
        | false => exact hen c this (h3 hsk)
      constructor <;> simp only [Sp.step, upd_apply, hgo] at hM ⊢
      case ub => exact h.ub
      case here => have := h.here; grind
      case prom => have := h.prom; grind
      case going => have := h.going; grind
      case over => have := h.over; grind
      case ready => have := h.ready; grind
      case moved => have := h.moved; grind
      case husk => have := h.husk; grind
      case frame => have := h.frame; grind
      case back => have := h.back; grind
      case unborn => have := h.unborn; grind
      case unheld => have := h.unheld; grind
      case live => have := h.live; grind
      case waits => have := h.waits; grind
      case tgt => have := h.tgt; grind
      case begunW => have := h.begunW; grind
      case owned => have := h.owned; grind
      case queue => have := h.queue; grind
      case pend => have := h.pend; grind
      case posted => have := h.posted; grind
      case postR => have := h.postR; grind
      case postN => have := h.postN; grind
      case got => have := h.got; grind
      case log => have := h.log; grind
      case once => exact h.once
      case killed => have := h.killed; grind
      case slain => have := h.slain; grind
      case starts => have := h.starts; grind
    · have hp := h.prom r R c hR hx
      have hg := h.going r R c hR hx he
      have hbk : ∀ c' f, s.frame c' = some f → f.receiver = some r → c' = c := by
        intro c' f' hf' hr'
        have := (h.back c' f' r hf' hr').1
        rw [hx] at this; simpa using this.symm
      have huniq : ∀ r' R', s.recv r' = some R' → p.holds r' = .coro c → r' = r := by
        intro r' R' hR' hx'
        have := (h.going r' R' c hR' hx' he).2.2.2
        rw [hg.2.2.2] at this; simpa using this.symm
      rw [if_neg (by simp [hd])]
      simp only [hp, hg.2.2.2, if_true]
      cases hb : p.begun c with
      | true =>
        have hM : ∀ b g, Explains p b g → Explains (p.step (.drop r)) b g :=
          fun b g h => h.mono rfl id (fun _ _ => by simp only [Sp.step, hgo, hb, if_true]; exact id)
        simp only [if_true]
        constructor <;> simp only [Sp.step, upd_apply, hgo, hb, if_true] at hM ⊢
        case ub => exact h.ub
        case here => have := h.here; grind
        case prom => have := h.prom; grind
        case going => have := h.going; grind
        case over => have := h.over; grind
        case ready => have := h.ready; grind
        case moved => have := h.moved; grind
        case husk => have := h.husk; grind
        case frame => have := h.frame; grind
        case back => have := h.back; grind
        case unborn => have := h.unborn; grind
        case unheld => have := h.unheld; grind
        case live => have := h.live; grind
        case waits => have := h.waits; grind
        case tgt => have := h.tgt; grind
        case begunW => have := h.begunW; grind
        case owned => have := h.owned; grind
        case queue => have := h.queue; grind
        case pend => have := h.pend; grind
        case posted => have := h.posted; grind
        case postR => have := h.postR; grind
        case postN => have := h.postN; grind
        case got => have := h.got; grind
        case log => have := h.log; grind
        case once => exact h.once
        case killed => have := h.killed; grind
        case slain => have := h.slain; grind
        case starts => have := h.starts; grind
      | false =>
        have hM : ∀ b g, Explains p b g → Explains (p.step (.drop r)) b g := by
          intro b g h
          refine h.mono rfl id fun c' e he' => ?_
          simp only [Sp.step, hgo, hb, Bool.false_eq_true, if_false, upd_apply]
          rw [if_neg (by rintro rfl; rw [he] at he'; simp at he')]
          exact he'
        have hbn := (h.frame c _ hg.2.2.2).1
        have hq : s.queue c = false := by
          cases hq : s.queue c with
          | false => rfl
          | true =>
            obtain ⟨-, -, r2, R2, h1, h2, h3⟩ := h.queue c hq
            rw [hg.2.2.2] at h1; simp only [Option.some.injEq, Frame.mk.injEq] at h1
            rw [← h1.1, hR] at h2; simp only [Option.some.injEq] at h2; subst h2
            exact absurd hc h3
        simp only [Bool.false_eq_true, if_false]
        constructor <;> simp only [Sp.step, upd_apply, hgo, hb, Bool.false_eq_true, if_false] at hM ⊢
        case ub => exact h.ub
        case here => have := h.here; grind
        case prom => have := h.prom; grind
        case going => have := h.going; grind
        case over => have := h.over; grind
        case ready => have := h.ready; grind
        case moved => have := h.moved; grind
        case husk => have := h.husk; grind
        case frame => have := h.frame; grind
        case back => have := h.back; grind
        case unborn => have := h.unborn; grind
        case unheld => have := h.unheld; grind
        case live => have := h.live; grind
        case waits => have := h.waits; grind
        case tgt => have := h.tgt; grind
        case begunW => have := h.begunW; grind
        case owned => have := h.owned; grind
        case queue => have := h.queue; grind
        case pend => have := h.pend; grind
        case posted => have := h.posted; grind
        case postR => have := h.postR; grind
        case postN => have := h.postN; grind
        case got => have := h.got; grind
        case log => have := h.log; grind
        case once => exact h.once
        case killed => have := h.killed; grind
        case slain => have := h.slain; grind
        case starts => have := h.starts; grind

theorem Inv.spawn (h : Inv p s) {a r r' : Nat} (hc : s.can (.spawn a r r') = true) (ht : Tidy p s (.spawn a r r')) :
    Inv (p.step (.spawn a r r')) (s.step (.spawn a r r')) := by
  unfold St.step; rw [if_neg (by simp [h.ub, hc])]
  simp only [St.can, St.user, Bool.and_eq_true, Option.isNone_iff_eq_none] at hc
  obtain ⟨⟨ha, hu⟩, hr'⟩ := hc
  cases hR : s.recv r with
  | none => rw [hR] at hu; simp at hu
  | some R =>
    simp only [hR, beq_iff_eq] at hu
    have hne : r ≠ r' := by rintro rfl; rw [hR] at hr'; simp at hr'
    have hM : ∀ b g, b ≠ a → Explains p b g → Explains (p.step (.spawn a r r')) b g :=
      fun b g hb h => h.mono (by simp [Sp.step, hb]) id (fun _ _ => id)
    have hx0 := h.here r R hR
    have hk : a ∉ s.killed := by
      intro hk; obtain ⟨w, hw, -⟩ := h.killed a hk; rw [ha] at hw; simp at hw
    have hw : ∀ x X, s.recv x = some X → X.awaited ≠ some a := by
      intro x X hX hA; have := (h.waits x X a hX hA).1; rw [ha] at this; simp at this
    have hwo : ∀ x X, s.recv x = some X → X.owner ≠ some a := by
      intro x X hX hA
      rcases (h.owned x X a hX hA).2.2.2 with h1 | h1
      · exact hw x X hX h1.1
      · rw [ha] at h1; simp at h1
    rcases h.isGoing hR with ⟨hd, hgo, hlf, hen⟩ | ⟨c, hd, hx, he, hgo, hlf⟩
    · obtain ⟨g, x, h1, h2, -, -⟩ := h.result hR hd ht.1
      have hA : R.awaited = none := by
        cases hx : p.holds r with
        | none => exact absurd hx hx0
        | coro c =>
          obtain ⟨e, he⟩ := Option.ne_none_iff_exists'.1 (hen c hx)
          exact (h.over r R c e hR hx he).2.1
        | ready v => exact (h.ready r R v hR hx).2.1
        | moved => exact (h.moved r R hR hx).2.1
        | husk => exact (h.husk r R hR hx).2.1
      have hE : Explains (p.step (.spawn a r r')) a g := h2 _ _ (by simp [Sp.step]) (by simp [Sp.step])
      have hbk : ∀ c f, s.frame c = some f → f.receiver ≠ some r := by
        intro c f hf hrc
        have := (h.back c f r hf hrc).1
        obtain ⟨-, -, h2, h3⟩ := h.frame c f hf
        cases hsk : f.stuck with
        | true => rw [h2 hsk] at hrc; simp at hrc
        | false => exact hen c this (h3 hsk)
      have hres : St.doneGot R = some g := by
        unfold St.doneGot
        cases hxc : R.exc with
        | none => simp [h1]
        | some e =>
          simp only [St.getResult, hxc, Option.some.injEq, Prod.mk.injEq] at h1
          simp [h1.2]
      simp only [St.spawn, hR, hd, if_true, hres]
      constructor <;> simp only [Sp.step, upd_apply, hgo] at hE hM ⊢
      case ub => exact h.ub
      case here => have := h.here; grind
      case prom => have := h.prom; grind
      case going => have := h.going; grind
      case over => have := h.over; grind
      case ready => have := h.ready; grind
      case moved => have := h.moved; grind
      case husk => have := h.husk; grind
      case frame => have := h.frame; grind
      case back => have := h.back; grind
      case unborn => have := h.unborn; grind
      case unheld => have := h.unheld; grind
      case live => have := h.live; grind
      case waits => have := h.waits; grind
      case tgt => have := h.tgt; grind
      case begunW => have := h.begunW; grind
      case owned => have := h.owned; grind
      case queue => have := h.queue; grind
      case pend => have := h.pend; grind
      case posted => have := h.posted; grind
      case postR => have := h.postR; grind
      case postN => have := h.postN; grind
      case got => have := h.got; grind
      case log => have := h.log; grind
      case once => exact h.once
      case killed => have := h.killed; grind
      case slain => have := h.slain; grind
      case starts => have := h.starts; grind
    · have hp := h.prom r R c hR hx
      have hg := h.going r R c hR hx he
      have hb : p.begun c = false := by
        cases hb : p.begun c with
        | false => rfl
        | true => exact absurd he (ht.2 c hx hb)
      have hA : R.awaited = none := by
        cases hA : R.awaited with
        | none => rfl
        | some b => have := h.begunW r R b c hR hA hu hx; rw [hb] at this; simp at this
      have hpw : ∀ a w, s.aw a = some w → w.got = none → a ∉ s.killed → w.posted = false → w.self ≠ r := by
        intro a w h1 h2 h3 h4 h5
        obtain ⟨-, R2, h6, h7, -⟩ := h.pend a w h1 h2 h3 h4
        rw [h5, hR] at h6; simp only [Option.some.injEq] at h6; subst h6; rw [hA] at h7; simp at h7
      have hbk : ∀ c' f, s.frame c' = some f → f.receiver = some r → c' = c := by
        intro c' f' hf' hr'
        have := (h.back c' f' r hf' hr').1
        rw [hx] at this; simpa using this.symm
      have huniq : ∀ r' R', s.recv r' = some R' → p.holds r' = .coro c → r' = r := by
        intro r' R' hR' hx'
        have := (h.going r' R' c hR' hx' he).2.2.2
        rw [hg.2.2.2] at this; simpa using this.symm
      have hqu : ∀ c', s.queue c' = true → s.frame c' ≠ some ⟨some r, false, false⟩ := by
        intro c' hq hf
        obtain ⟨-, -, r2, R2, h1, h2, h3⟩ := h.queue c' hq
        rw [hf] at h1; simp only [Option.some.injEq, Frame.mk.injEq] at h1
        rw [← h1.1, hR] at h2; simp only [Option.some.injEq] at h2; subst h2
        exact absurd hu h3
      simp only [St.spawn, hR, hd, Bool.false_eq_true, if_false, St.moveConstruct]
      rw [if_pos ⟨trivial, hg.2.1⟩]
      simp only [hp, hg.2.2.2, upd_apply, if_true, hA]
      constructor <;> simp only [Sp.step, upd_apply, hgo] at hM ⊢
      case ub => exact h.ub
      case here => have := h.here; grind
      case prom => have := h.prom; grind
      case going => have := h.going; grind
      case over => have := h.over; grind
      case ready => have := h.ready; grind
      case moved => have := h.moved; grind
      case husk => have := h.husk; grind
      case frame => have := h.frame; grind
      case back => have := h.back; grind
      case unborn => have := h.unborn; grind
      case unheld => have := h.unheld; grind
      case live => have := h.live; grind
      case waits => have := h.waits; grind
      case tgt => have := h.tgt; grind
      case begunW => have := h.begunW; grind
      case owned => have := h.owned; grind
      case queue => have := h.queue; grind
      case pend => have := h.pend; grind
      case posted => have := h.posted; grind
      case postR => have := h.postR; grind
      case postN => have := h.postN; grind
      case got => have := h.got; grind
      case log => have := h.log; grind
      case once => exact h.once
      case killed => have := h.killed; grind
      case slain => have := h.slain; grind
      case starts => have := h.starts; grind

theorem Inv.step (h : Inv p s) {e : Ev} (hc : s.can e = true) (ht : Tidy p s e) : Inv (p.step e) (s.step e) := by
  cases e with
  | create c r => exact h.create hc
  | noop r v => exact h.noop hc
  | finish c o => cases o with
    | val v => exact h.finish_val hc
    | exc v => exact h.finish_exc hc
  | kill c => exact h.kill hc
  | await a r => exact h.await hc ht
  | interrupt a => exact h.interrupt hc ht
  | moveC r r' => exact h.moveC hc ht
  | drop r => exact h.drop hc ht
  | spawn a r r' => exact h.spawn hc ht
  | begin c => exact h.begin hc
  | deliver a => exact h.deliver hc
  | cancel a => exact h.cancel hc

theorem Inv.steps (h : Inv p s) : ∀ {es : List Ev}, TidyRun p s es → Inv (p.steps es) (s.steps es) := by
  intro es
  induction es generalizing p s with
  | nil => intro _; exact h
  | cons e es ih => intro ht; exact ih (h.step ht.1 ht.2.1) ht.2.2

theorem Inv.run {es : List Ev} (ht : TidyRun {} {} es) : Inv (spec es) (St.run es) := Inv.init.steps ht

end Cobalt.Task
