import Verif.Gen.Inv
set_option linter.unusedSimpArgs false

namespace Cobalt.Gen

open Prom (upd upd_apply)

variable {q : Bool} {p : Sp} {s : St}

/-- One more entry in the log. -/
theorem logCons {l : List (Nat × Got)} {aw aw' : Nat → Option Aw} {a : Nat} {g : Got} {w : Aw}
    (h : ∀ b g, (b, g) ∈ l ↔ ∃ w, aw b = some w ∧ w.got = some g) (hl : ∀ g, (a, g) ∉ l)
    (hw : w.got = some g) (h1 : aw' a = some w) (h2 : ∀ b, b ≠ a → aw' b = aw b) (b : Nat) (g' : Got) :
    (b, g') ∈ (a, g) :: l ↔ ∃ w, aw' b = some w ∧ w.got = some g' := by
  simp only [List.mem_cons, Prod.mk.injEq]
  by_cases hb : b = a
  · subst hb
    rw [h1]
    simp only [true_and, hl g', or_false, Option.some.injEq, exists_eq_left', hw]
    exact eq_comm
  · rw [h2 b hb, h b g']
    simp [hb]

theorem onceCons {l : List (Nat × Got)} {a : Nat} {g : Got} (h : (l.map Prod.fst).Nodup) (hl : ∀ g, (a, g) ∉ l) :
    (((a, g) :: l).map Prod.fst).Nodup := by
  simp only [List.map_cons, List.nodup_cons, h, and_true, List.mem_map, Prod.exists, exists_and_right,
    exists_eq_right, not_exists]
  exact hl

theorem Inv.yield (h : Inv q p s) {v : Nat} (hc : s.can (.yield v) = true) :
    Inv q (p.step (.yield v)) (s.step (.yield v)) := by
  unfold St.step; rw [if_neg (by simp [h.ub, hc])]
  simp only [St.can, beq_iff_eq] at hc
  cases hrv : s.recv with
  | false =>
    simp only [hrv, Bool.false_eq_true, if_false, St.suspend, if_true]
    have hd : p.dropped = true := by rw [h.dropped, hrv]; rfl
    constructor
    case ub => have := h.ub; (try simp only [Sp.step, Sp.out, hd, Bool.false_eq_true, if_false, if_true, upd_apply]) <;> grind
    case dropped => have := h.dropped; (try simp only [Sp.step, Sp.out, hd, Bool.false_eq_true, if_false, if_true, upd_apply]) <;> grind
    case ended => have := h.ended; (try simp only [Sp.step, Sp.out, hd, Bool.false_eq_true, if_false, if_true, upd_apply]) <;> grind
    case gone => have := h.gone; (try simp only [Sp.step, Sp.out, hd, Bool.false_eq_true, if_false, if_true, upd_apply]) <;> grind
    case stuck => have := h.stuck; (try simp only [Sp.step, Sp.out, hd, Bool.false_eq_true, if_false, if_true, upd_apply]) <;> grind
    case unrecv => have := h.unrecv; (try simp only [Sp.step, Sp.out, hd, Bool.false_eq_true, if_false, if_true, upd_apply]) <;> grind
    case outs => (try simp only [Sp.step, Sp.out, hd, Bool.false_eq_true, if_false, if_true, upd_apply]) <;> (exact fun _ => by have h1 := h.outs; simp_all [Sp.step, Sp.out, pend, optVal, optErr, ofBody, List.filter_cons])
    case pre => have h1 := h.outs; have h2 := h.pre; have := h.exc; (try simp only [Sp.step, Sp.out, hd, Bool.false_eq_true, if_false, if_true, upd_apply]) <;> grind
    case excBody => have := h.excBody; (try simp only [Sp.step, Sp.out, hd, Bool.false_eq_true, if_false, if_true, upd_apply]) <;> grind
    case buf => have := h.buf; (try simp only [Sp.step, Sp.out, hd, Bool.false_eq_true, if_false, if_true, upd_apply]) <;> grind
    case exc => have := h.exc; (try simp only [Sp.step, Sp.out, hd, Bool.false_eq_true, if_false, if_true, upd_apply]) <;> grind
    case doneA => have := h.doneA; (try simp only [Sp.step, Sp.out, hd, Bool.false_eq_true, if_false, if_true, upd_apply]) <;> grind
    case parkA => have := h.parkA; have := h.gone; (try simp only [Sp.step, Sp.out, hd, Bool.false_eq_true, if_false, if_true, upd_apply]) <;> grind
    case eagerR => have := h.eagerR; (try simp only [Sp.step, Sp.out, hd, Bool.false_eq_true, if_false, if_true, upd_apply]) <;> grind
    case eagerP => have := h.eagerP; have := h.eagerR; (try simp only [Sp.step, Sp.out, hd, Bool.false_eq_true, if_false, if_true, upd_apply]) <;> grind
    case eagerQ => have := h.eagerQ; (try simp only [Sp.step, Sp.out, hd, Bool.false_eq_true, if_false, if_true, upd_apply]) <;> grind
    case lazyR => have := h.lazyR; (try simp only [Sp.step, Sp.out, hd, Bool.false_eq_true, if_false, if_true, upd_apply]) <;> grind
    case eagerD => have := h.eagerD; have := h.eagerR; (try simp only [Sp.step, Sp.out, hd, Bool.false_eq_true, if_false, if_true, upd_apply]) <;> grind
    case awaited => have := h.awaited; (try simp only [Sp.step, Sp.out, hd, Bool.false_eq_true, if_false, if_true, upd_apply]) <;> grind
    case waitsN => have := h.waitsN; have := h.unrecv; have := h.parkA; (try simp only [Sp.step, Sp.out, hd, Bool.false_eq_true, if_false, if_true, upd_apply]) <;> grind
    case pending => have := h.pending; (try simp only [Sp.step, Sp.out, hd, Bool.false_eq_true, if_false, if_true, upd_apply]) <;> grind
    case log => have := h.log; (try simp only [Sp.step, Sp.out, hd, Bool.false_eq_true, if_false, if_true, upd_apply]) <;> grind
    case rv => have := h.rv; have := h.gone; (try simp only [Sp.step, Sp.out, hd, Bool.false_eq_true, if_false, if_true, upd_apply]) <;> grind
    case once => have := h.once; (try simp only [Sp.step, Sp.out, hd, Bool.false_eq_true, if_false, if_true, upd_apply]) <;> grind
    case killed => have := h.killed; (try simp only [Sp.step, Sp.out, hd, Bool.false_eq_true, if_false, if_true, upd_apply]) <;> grind
    case sub => have h1 := h.sub; (try simp only [Sp.step, Sp.out, hd, Bool.false_eq_true, if_false, if_true, upd_apply]) <;> grind
    case eqs => have h1 := h.eqs; have h2 := h.ended; (try simp only [Sp.step, Sp.out, hd, Bool.false_eq_true, if_false, if_true, upd_apply]) <;> grind
    case eqPre => have h1 := h.eqPre; have h2 := h.eqs; have h3 := h.ended; have h4 := h.gone; (try simp only [Sp.step, Sp.out, hd, Bool.false_eq_true, if_false, if_true, upd_apply]) <;> grind
    case points => have := h.points; (try simp only [Sp.step, Sp.out, hd, Bool.false_eq_true, if_false, if_true, upd_apply]) <;> grind
  | true =>
    have hd : p.dropped = false := by rw [h.dropped, hrv]; rfl
    have hdn : s.done = false := by
      cases hx : s.done with
      | false => rfl
      | true => have := (h.gone hrv).1 hx; rw [hc] at this; simp at this
    have hex : s.exc = none := by
      cases hx : s.exc with
      | none => rfl
      | some e => have := (h.exc e hx).2; rw [hdn] at this; simp at this
    have hub := h.ub
    cases hres : s.result with
    | none =>
      have hbuf : s.buffer = none := by
        cases hx : s.buffer with
        | none => rfl
        | some e => exact absurd hres (h.buf e hx).1
      by_cases hp : s.pushed ≠ none ∧ s.void = true
      · obtain ⟨u, hu⟩ := Option.ne_none_iff_exists'.1 hp.1
        have hlz : s.lazy = true := by
          cases hx : s.lazy with
          | true => rfl
          | false => have := (h.eagerR hrv hx hc).2; rw [hu] at this; simp at this
        simp only [St.put, St.suspend, St.bodyResume, St.wake, St.resumeAw, St.takeResult, St.give, St.finish, hres, hu, hp, hrv, hub, if_true, ne_eq, reduceCtorEq, not_false_eq_true, true_or, and_self,
          Bool.true_eq_false, Bool.false_eq_true, if_false]
        constructor
        case ub => have := h.ub; (try simp only [Sp.step, Sp.out, hd, Bool.false_eq_true, if_false, if_true, upd_apply]) <;> grind
        case dropped => have := h.dropped; (try simp only [Sp.step, Sp.out, hd, Bool.false_eq_true, if_false, if_true, upd_apply]) <;> grind
        case ended => have := h.ended; (try simp only [Sp.step, Sp.out, hd, Bool.false_eq_true, if_false, if_true, upd_apply]) <;> grind
        case gone => have := h.gone; (try simp only [Sp.step, Sp.out, hd, Bool.false_eq_true, if_false, if_true, upd_apply]) <;> grind
        case stuck => have := h.stuck; (try simp only [Sp.step, Sp.out, hd, Bool.false_eq_true, if_false, if_true, upd_apply]) <;> grind
        case unrecv => have := h.unrecv; (try simp only [Sp.step, Sp.out, hd, Bool.false_eq_true, if_false, if_true, upd_apply]) <;> grind
        case outs => (try simp only [Sp.step, Sp.out, hd, Bool.false_eq_true, if_false, if_true, upd_apply]) <;> (exact fun _ => by have h1 := h.outs; simp_all [Sp.step, Sp.out, pend, optVal, optErr, ofBody, List.filter_cons])
        case pre => have h1 := h.outs; have h2 := h.pre; have := h.exc; (try simp only [Sp.step, Sp.out, hd, Bool.false_eq_true, if_false, if_true, upd_apply]) <;> grind
        case excBody => have := h.excBody; (try simp only [Sp.step, Sp.out, hd, Bool.false_eq_true, if_false, if_true, upd_apply]) <;> grind
        case buf => have := h.buf; (try simp only [Sp.step, Sp.out, hd, Bool.false_eq_true, if_false, if_true, upd_apply]) <;> grind
        case exc => have := h.exc; (try simp only [Sp.step, Sp.out, hd, Bool.false_eq_true, if_false, if_true, upd_apply]) <;> grind
        case doneA => have := h.doneA; (try simp only [Sp.step, Sp.out, hd, Bool.false_eq_true, if_false, if_true, upd_apply]) <;> grind
        case parkA => have := h.parkA; have := h.gone; (try simp only [Sp.step, Sp.out, hd, Bool.false_eq_true, if_false, if_true, upd_apply]) <;> grind
        case eagerR => have := h.eagerR; (try simp only [Sp.step, Sp.out, hd, Bool.false_eq_true, if_false, if_true, upd_apply]) <;> grind
        case eagerP => have := h.eagerP; have := h.eagerR; (try simp only [Sp.step, Sp.out, hd, Bool.false_eq_true, if_false, if_true, upd_apply]) <;> grind
        case eagerQ => have := h.eagerQ; (try simp only [Sp.step, Sp.out, hd, Bool.false_eq_true, if_false, if_true, upd_apply]) <;> grind
        case lazyR => have := h.lazyR; (try simp only [Sp.step, Sp.out, hd, Bool.false_eq_true, if_false, if_true, upd_apply]) <;> grind
        case eagerD => have := h.eagerD; have := h.eagerR; (try simp only [Sp.step, Sp.out, hd, Bool.false_eq_true, if_false, if_true, upd_apply]) <;> grind
        case awaited => have := h.awaited; (try simp only [Sp.step, Sp.out, hd, Bool.false_eq_true, if_false, if_true, upd_apply]) <;> grind
        case waitsN => have := h.waitsN; have := h.unrecv; have := h.parkA; (try simp only [Sp.step, Sp.out, hd, Bool.false_eq_true, if_false, if_true, upd_apply]) <;> grind
        case pending => have := h.pending; (try simp only [Sp.step, Sp.out, hd, Bool.false_eq_true, if_false, if_true, upd_apply]) <;> grind
        case log => have := h.log; (try simp only [Sp.step, Sp.out, hd, Bool.false_eq_true, if_false, if_true, upd_apply]) <;> grind
        case rv => have := h.rv; have := h.gone; (try simp only [Sp.step, Sp.out, hd, Bool.false_eq_true, if_false, if_true, upd_apply]) <;> grind
        case once => have := h.once; (try simp only [Sp.step, Sp.out, hd, Bool.false_eq_true, if_false, if_true, upd_apply]) <;> grind
        case killed => have := h.killed; (try simp only [Sp.step, Sp.out, hd, Bool.false_eq_true, if_false, if_true, upd_apply]) <;> grind
        case sub => have h1 := h.sub; (try simp only [Sp.step, Sp.out, hd, Bool.false_eq_true, if_false, if_true, upd_apply]) <;> grind
        case eqs => have h1 := h.eqs; have h2 := h.ended; (try simp only [Sp.step, Sp.out, hd, Bool.false_eq_true, if_false, if_true, upd_apply]) <;> grind
        case eqPre => have h1 := h.eqPre; have h2 := h.eqs; have h3 := h.ended; have h4 := h.gone; (try simp only [Sp.step, Sp.out, hd, Bool.false_eq_true, if_false, if_true, upd_apply]) <;> grind
        case points => have := h.points; (try simp only [Sp.step, Sp.out, hd, Bool.false_eq_true, if_false, if_true, upd_apply]) <;> grind
      · have hp' : ¬(s.pushed ≠ none ∧ (s.void = true ∨ some v = none)) := by simpa using hp
        cases haw : s.awaited with
        | none =>
          simp only [St.put, St.suspend, St.bodyResume, St.wake, St.resumeAw, St.takeResult, St.give, St.finish, hres, hp', hrv, hub, haw, if_true, Bool.true_eq_false, Bool.false_eq_true, if_false]
          constructor
          case ub => have := h.ub; (try simp only [Sp.step, Sp.out, hd, Bool.false_eq_true, if_false, if_true, upd_apply]) <;> grind
          case dropped => have := h.dropped; (try simp only [Sp.step, Sp.out, hd, Bool.false_eq_true, if_false, if_true, upd_apply]) <;> grind
          case ended => have := h.ended; (try simp only [Sp.step, Sp.out, hd, Bool.false_eq_true, if_false, if_true, upd_apply]) <;> grind
          case gone => have := h.gone; (try simp only [Sp.step, Sp.out, hd, Bool.false_eq_true, if_false, if_true, upd_apply]) <;> grind
          case stuck => have := h.stuck; (try simp only [Sp.step, Sp.out, hd, Bool.false_eq_true, if_false, if_true, upd_apply]) <;> grind
          case unrecv => have := h.unrecv; (try simp only [Sp.step, Sp.out, hd, Bool.false_eq_true, if_false, if_true, upd_apply]) <;> grind
          case outs => (try simp only [Sp.step, Sp.out, hd, Bool.false_eq_true, if_false, if_true, upd_apply]) <;> (exact fun _ => by have h1 := h.outs; simp_all [Sp.step, Sp.out, pend, optVal, optErr, ofBody, List.filter_cons])
          case pre => have h1 := h.outs; have h2 := h.pre; have := h.exc; (try simp only [Sp.step, Sp.out, hd, Bool.false_eq_true, if_false, if_true, upd_apply]) <;> grind
          case excBody => have := h.excBody; (try simp only [Sp.step, Sp.out, hd, Bool.false_eq_true, if_false, if_true, upd_apply]) <;> grind
          case buf => have := h.buf; (try simp only [Sp.step, Sp.out, hd, Bool.false_eq_true, if_false, if_true, upd_apply]) <;> grind
          case exc => have := h.exc; (try simp only [Sp.step, Sp.out, hd, Bool.false_eq_true, if_false, if_true, upd_apply]) <;> grind
          case doneA => have := h.doneA; (try simp only [Sp.step, Sp.out, hd, Bool.false_eq_true, if_false, if_true, upd_apply]) <;> grind
          case parkA => have := h.parkA; have := h.gone; (try simp only [Sp.step, Sp.out, hd, Bool.false_eq_true, if_false, if_true, upd_apply]) <;> grind
          case eagerR => have := h.eagerR; (try simp only [Sp.step, Sp.out, hd, Bool.false_eq_true, if_false, if_true, upd_apply]) <;> grind
          case eagerP => have := h.eagerP; have := h.eagerR; (try simp only [Sp.step, Sp.out, hd, Bool.false_eq_true, if_false, if_true, upd_apply]) <;> grind
          case eagerQ => have := h.eagerQ; (try simp only [Sp.step, Sp.out, hd, Bool.false_eq_true, if_false, if_true, upd_apply]) <;> grind
          case lazyR => have := h.lazyR; (try simp only [Sp.step, Sp.out, hd, Bool.false_eq_true, if_false, if_true, upd_apply]) <;> grind
          case eagerD => have := h.eagerD; have := h.eagerR; (try simp only [Sp.step, Sp.out, hd, Bool.false_eq_true, if_false, if_true, upd_apply]) <;> grind
          case awaited => have := h.awaited; (try simp only [Sp.step, Sp.out, hd, Bool.false_eq_true, if_false, if_true, upd_apply]) <;> grind
          case waitsN => have := h.waitsN; have := h.unrecv; have := h.parkA; (try simp only [Sp.step, Sp.out, hd, Bool.false_eq_true, if_false, if_true, upd_apply]) <;> grind
          case pending => have := h.pending; (try simp only [Sp.step, Sp.out, hd, Bool.false_eq_true, if_false, if_true, upd_apply]) <;> grind
          case log => have := h.log; (try simp only [Sp.step, Sp.out, hd, Bool.false_eq_true, if_false, if_true, upd_apply]) <;> grind
          case rv => have := h.rv; have := h.gone; (try simp only [Sp.step, Sp.out, hd, Bool.false_eq_true, if_false, if_true, upd_apply]) <;> grind
          case once => have := h.once; (try simp only [Sp.step, Sp.out, hd, Bool.false_eq_true, if_false, if_true, upd_apply]) <;> grind
          case killed => have := h.killed; (try simp only [Sp.step, Sp.out, hd, Bool.false_eq_true, if_false, if_true, upd_apply]) <;> grind
          case sub => have h1 := h.sub; (try simp only [Sp.step, Sp.out, hd, Bool.false_eq_true, if_false, if_true, upd_apply]) <;> grind
          case eqs => have h1 := h.eqs; have h2 := h.ended; (try simp only [Sp.step, Sp.out, hd, Bool.false_eq_true, if_false, if_true, upd_apply]) <;> grind
          case eqPre => have h1 := h.eqPre; have h2 := h.eqs; have h3 := h.ended; have h4 := h.gone; (try simp only [Sp.step, Sp.out, hd, Bool.false_eq_true, if_false, if_true, upd_apply]) <;> grind
          case points => have := h.points; (try simp only [Sp.step, Sp.out, hd, Bool.false_eq_true, if_false, if_true, upd_apply]) <;> grind
        | some a =>
          obtain ⟨hk, w, hw, hwx, hwg, hwp, hwe⟩ := h.awaited a haw
          have hl : ∀ g, (a, g) ∉ s.log := by
            intro g hg; obtain ⟨w', h1, h2⟩ := (h.log a g).1 hg; grind
          have hpn : w.toPush = true → s.pushed = none := by have := h.eagerR; grind
          cases htp : w.toPush with
          | true =>
            have hpn := hpn htp
            simp only [St.put, St.suspend, St.bodyResume, St.wake, St.resumeAw, St.takeResult, St.give, St.finish, hres, hpn, hrv, hub, haw, hw, hwx, hex, htp, hbuf, if_true, Bool.true_eq_false, Bool.false_eq_true, if_false,
              ne_eq, not_true_eq_false, false_and]
            constructor
            case ub => have := h.ub; (try simp only [Sp.step, Sp.out, hd, Bool.false_eq_true, if_false, if_true, upd_apply]) <;> grind
            case dropped => have := h.dropped; (try simp only [Sp.step, Sp.out, hd, Bool.false_eq_true, if_false, if_true, upd_apply]) <;> grind
            case ended => have := h.ended; (try simp only [Sp.step, Sp.out, hd, Bool.false_eq_true, if_false, if_true, upd_apply]) <;> grind
            case gone => have := h.gone; (try simp only [Sp.step, Sp.out, hd, Bool.false_eq_true, if_false, if_true, upd_apply]) <;> grind
            case stuck => have := h.stuck; (try simp only [Sp.step, Sp.out, hd, Bool.false_eq_true, if_false, if_true, upd_apply]) <;> grind
            case unrecv => have := h.unrecv; (try simp only [Sp.step, Sp.out, hd, Bool.false_eq_true, if_false, if_true, upd_apply]) <;> grind
            case outs => (try simp only [Sp.step, Sp.out, hd, Bool.false_eq_true, if_false, if_true, upd_apply]) <;> (exact fun _ => by have h1 := h.outs; simp_all [Sp.step, Sp.out, pend, optVal, optErr, ofBody, List.filter_cons])
            case pre => have h1 := h.outs; have h2 := h.pre; have := h.exc; (try simp only [Sp.step, Sp.out, hd, Bool.false_eq_true, if_false, if_true, upd_apply]) <;> grind
            case excBody => have := h.excBody; (try simp only [Sp.step, Sp.out, hd, Bool.false_eq_true, if_false, if_true, upd_apply]) <;> grind
            case buf => have := h.buf; (try simp only [Sp.step, Sp.out, hd, Bool.false_eq_true, if_false, if_true, upd_apply]) <;> grind
            case exc => have := h.exc; (try simp only [Sp.step, Sp.out, hd, Bool.false_eq_true, if_false, if_true, upd_apply]) <;> grind
            case doneA => have := h.doneA; (try simp only [Sp.step, Sp.out, hd, Bool.false_eq_true, if_false, if_true, upd_apply]) <;> grind
            case parkA => have := h.parkA; have := h.gone; (try simp only [Sp.step, Sp.out, hd, Bool.false_eq_true, if_false, if_true, upd_apply]) <;> grind
            case eagerR => have := h.eagerR; (try simp only [Sp.step, Sp.out, hd, Bool.false_eq_true, if_false, if_true, upd_apply]) <;> grind
            case eagerP => have := h.eagerP; have := h.eagerR; (try simp only [Sp.step, Sp.out, hd, Bool.false_eq_true, if_false, if_true, upd_apply]) <;> grind
            case eagerQ => have := h.eagerQ; (try simp only [Sp.step, Sp.out, hd, Bool.false_eq_true, if_false, if_true, upd_apply]) <;> grind
            case lazyR => have := h.lazyR; (try simp only [Sp.step, Sp.out, hd, Bool.false_eq_true, if_false, if_true, upd_apply]) <;> grind
            case eagerD => have := h.eagerD; have := h.eagerR; (try simp only [Sp.step, Sp.out, hd, Bool.false_eq_true, if_false, if_true, upd_apply]) <;> grind
            case awaited => have := h.awaited; (try simp only [Sp.step, Sp.out, hd, Bool.false_eq_true, if_false, if_true, upd_apply]) <;> grind
            case waitsN => have := h.waitsN; have := h.unrecv; have := h.parkA; (try simp only [Sp.step, Sp.out, hd, Bool.false_eq_true, if_false, if_true, upd_apply]) <;> grind
            case pending => have := h.pending; (try simp only [Sp.step, Sp.out, hd, Bool.false_eq_true, if_false, if_true, upd_apply]) <;> grind
            case log => (try simp only [Sp.step, Sp.out, hd, Bool.false_eq_true, if_false, if_true, upd_apply]) <;> (exact logCons (w := { push := w.push, toPush := false, ex := none, got := some (.val v) }) h.log hl rfl (by simp) (fun b hb => by simp [hb]))
            case rv => have := h.rv; have := h.gone; (try simp only [Sp.step, Sp.out, hd, Bool.false_eq_true, if_false, if_true, upd_apply]) <;> grind
            case once => (try simp only [Sp.step, Sp.out, hd, Bool.false_eq_true, if_false, if_true, upd_apply]) <;> (exact onceCons h.once hl)
            case killed => have := h.killed; (try simp only [Sp.step, Sp.out, hd, Bool.false_eq_true, if_false, if_true, upd_apply]) <;> grind
            case sub => have h1 := h.sub; (try simp only [Sp.step, Sp.out, hd, Bool.false_eq_true, if_false, if_true, upd_apply]) <;> grind
            case eqs => have h1 := h.eqs; have h2 := h.ended; (try simp only [Sp.step, Sp.out, hd, Bool.false_eq_true, if_false, if_true, upd_apply]) <;> grind
            case eqPre => have h1 := h.eqPre; have h2 := h.eqs; have h3 := h.ended; have h4 := h.gone; (try simp only [Sp.step, Sp.out, hd, Bool.false_eq_true, if_false, if_true, upd_apply]) <;> grind
            case points => have := h.points; (try simp only [Sp.step, Sp.out, hd, Bool.false_eq_true, if_false, if_true, upd_apply]) <;> grind
          | false =>
            have hlz : s.lazy = true := by
              cases hx : s.lazy with
              | true => rfl
              | false => have := hwe hx; rw [htp] at this; simp at this
            simp only [St.put, St.suspend, St.bodyResume, St.wake, St.resumeAw, St.takeResult, St.give, St.finish, hres, hp', hrv, hub, haw, hw, hwx, hex, htp, hbuf, hlz, if_true, Bool.true_eq_false, Bool.false_eq_true, if_false,
              and_false]
            constructor
            case ub => have := h.ub; (try simp only [Sp.step, Sp.out, hd, Bool.false_eq_true, if_false, if_true, upd_apply]) <;> grind
            case dropped => have := h.dropped; (try simp only [Sp.step, Sp.out, hd, Bool.false_eq_true, if_false, if_true, upd_apply]) <;> grind
            case ended => have := h.ended; (try simp only [Sp.step, Sp.out, hd, Bool.false_eq_true, if_false, if_true, upd_apply]) <;> grind
            case gone => have := h.gone; (try simp only [Sp.step, Sp.out, hd, Bool.false_eq_true, if_false, if_true, upd_apply]) <;> grind
            case stuck => have := h.stuck; (try simp only [Sp.step, Sp.out, hd, Bool.false_eq_true, if_false, if_true, upd_apply]) <;> grind
            case unrecv => have := h.unrecv; (try simp only [Sp.step, Sp.out, hd, Bool.false_eq_true, if_false, if_true, upd_apply]) <;> grind
            case outs => (try simp only [Sp.step, Sp.out, hd, Bool.false_eq_true, if_false, if_true, upd_apply]) <;> (exact fun _ => by have h1 := h.outs; simp_all [Sp.step, Sp.out, pend, optVal, optErr, ofBody, List.filter_cons])
            case pre => have h1 := h.outs; have h2 := h.pre; have := h.exc; (try simp only [Sp.step, Sp.out, hd, Bool.false_eq_true, if_false, if_true, upd_apply]) <;> grind
            case excBody => have := h.excBody; (try simp only [Sp.step, Sp.out, hd, Bool.false_eq_true, if_false, if_true, upd_apply]) <;> grind
            case buf => have := h.buf; (try simp only [Sp.step, Sp.out, hd, Bool.false_eq_true, if_false, if_true, upd_apply]) <;> grind
            case exc => have := h.exc; (try simp only [Sp.step, Sp.out, hd, Bool.false_eq_true, if_false, if_true, upd_apply]) <;> grind
            case doneA => have := h.doneA; (try simp only [Sp.step, Sp.out, hd, Bool.false_eq_true, if_false, if_true, upd_apply]) <;> grind
            case parkA => have := h.parkA; have := h.gone; (try simp only [Sp.step, Sp.out, hd, Bool.false_eq_true, if_false, if_true, upd_apply]) <;> grind
            case eagerR => have := h.eagerR; (try simp only [Sp.step, Sp.out, hd, Bool.false_eq_true, if_false, if_true, upd_apply]) <;> grind
            case eagerP => have := h.eagerP; have := h.eagerR; (try simp only [Sp.step, Sp.out, hd, Bool.false_eq_true, if_false, if_true, upd_apply]) <;> grind
            case eagerQ => have := h.eagerQ; (try simp only [Sp.step, Sp.out, hd, Bool.false_eq_true, if_false, if_true, upd_apply]) <;> grind
            case lazyR => have := h.lazyR; (try simp only [Sp.step, Sp.out, hd, Bool.false_eq_true, if_false, if_true, upd_apply]) <;> grind
            case eagerD => have := h.eagerD; have := h.eagerR; (try simp only [Sp.step, Sp.out, hd, Bool.false_eq_true, if_false, if_true, upd_apply]) <;> grind
            case awaited => have := h.awaited; (try simp only [Sp.step, Sp.out, hd, Bool.false_eq_true, if_false, if_true, upd_apply]) <;> grind
            case waitsN => have := h.waitsN; have := h.unrecv; have := h.parkA; (try simp only [Sp.step, Sp.out, hd, Bool.false_eq_true, if_false, if_true, upd_apply]) <;> grind
            case pending => have := h.pending; (try simp only [Sp.step, Sp.out, hd, Bool.false_eq_true, if_false, if_true, upd_apply]) <;> grind
            case log => (try simp only [Sp.step, Sp.out, hd, Bool.false_eq_true, if_false, if_true, upd_apply]) <;> (exact logCons (w := { push := w.push, toPush := false, ex := none, got := some (.val v) }) h.log hl rfl (by simp) (fun b hb => by simp [hb]))
            case rv => have := h.rv; have := h.gone; (try simp only [Sp.step, Sp.out, hd, Bool.false_eq_true, if_false, if_true, upd_apply]) <;> grind
            case once => (try simp only [Sp.step, Sp.out, hd, Bool.false_eq_true, if_false, if_true, upd_apply]) <;> (exact onceCons h.once hl)
            case killed => have := h.killed; (try simp only [Sp.step, Sp.out, hd, Bool.false_eq_true, if_false, if_true, upd_apply]) <;> grind
            case sub => have h1 := h.sub; (try simp only [Sp.step, Sp.out, hd, Bool.false_eq_true, if_false, if_true, upd_apply]) <;> grind
            case eqs => have h1 := h.eqs; have h2 := h.ended; (try simp only [Sp.step, Sp.out, hd, Bool.false_eq_true, if_false, if_true, upd_apply]) <;> grind
            case eqPre => have h1 := h.eqPre; have h2 := h.eqs; have h3 := h.ended; have h4 := h.gone; (try simp only [Sp.step, Sp.out, hd, Bool.false_eq_true, if_false, if_true, upd_apply]) <;> grind
            case points => have := h.points; (try simp only [Sp.step, Sp.out, hd, Bool.false_eq_true, if_false, if_true, upd_apply]) <;> grind
    | some u =>
      obtain ⟨hlz, hvd, hpn, hbuf⟩ := h.lazyR hrv hc (by simp [hres])
      cases haw : s.awaited with
      | none =>
        simp only [St.put, St.suspend, St.bodyResume, St.wake, St.resumeAw, St.takeResult, St.give, St.finish, hres, hpn, hrv, hub, haw, hbuf, if_true, Bool.true_eq_false, Bool.false_eq_true, if_false,
          ne_eq, not_true_eq_false, false_and, reduceCtorEq]
        constructor
        case ub => have := h.ub; (try simp only [Sp.step, Sp.out, hd, Bool.false_eq_true, if_false, if_true, upd_apply]) <;> grind
        case dropped => have := h.dropped; (try simp only [Sp.step, Sp.out, hd, Bool.false_eq_true, if_false, if_true, upd_apply]) <;> grind
        case ended => have := h.ended; (try simp only [Sp.step, Sp.out, hd, Bool.false_eq_true, if_false, if_true, upd_apply]) <;> grind
        case gone => have := h.gone; (try simp only [Sp.step, Sp.out, hd, Bool.false_eq_true, if_false, if_true, upd_apply]) <;> grind
        case stuck => have := h.stuck; (try simp only [Sp.step, Sp.out, hd, Bool.false_eq_true, if_false, if_true, upd_apply]) <;> grind
        case unrecv => have := h.unrecv; (try simp only [Sp.step, Sp.out, hd, Bool.false_eq_true, if_false, if_true, upd_apply]) <;> grind
        case outs => (try simp only [Sp.step, Sp.out, hd, Bool.false_eq_true, if_false, if_true, upd_apply]) <;> (exact fun _ => by have h1 := h.outs; simp_all [Sp.step, Sp.out, pend, optVal, optErr, ofBody, List.filter_cons])
        case pre => have h1 := h.outs; have h2 := h.pre; have := h.exc; (try simp only [Sp.step, Sp.out, hd, Bool.false_eq_true, if_false, if_true, upd_apply]) <;> grind
        case excBody => have := h.excBody; (try simp only [Sp.step, Sp.out, hd, Bool.false_eq_true, if_false, if_true, upd_apply]) <;> grind
        case buf => have := h.buf; (try simp only [Sp.step, Sp.out, hd, Bool.false_eq_true, if_false, if_true, upd_apply]) <;> grind
        case exc => have := h.exc; (try simp only [Sp.step, Sp.out, hd, Bool.false_eq_true, if_false, if_true, upd_apply]) <;> grind
        case doneA => have := h.doneA; (try simp only [Sp.step, Sp.out, hd, Bool.false_eq_true, if_false, if_true, upd_apply]) <;> grind
        case parkA => have := h.parkA; have := h.gone; (try simp only [Sp.step, Sp.out, hd, Bool.false_eq_true, if_false, if_true, upd_apply]) <;> grind
        case eagerR => have := h.eagerR; (try simp only [Sp.step, Sp.out, hd, Bool.false_eq_true, if_false, if_true, upd_apply]) <;> grind
        case eagerP => have := h.eagerP; have := h.eagerR; (try simp only [Sp.step, Sp.out, hd, Bool.false_eq_true, if_false, if_true, upd_apply]) <;> grind
        case eagerQ => have := h.eagerQ; (try simp only [Sp.step, Sp.out, hd, Bool.false_eq_true, if_false, if_true, upd_apply]) <;> grind
        case lazyR => have := h.lazyR; (try simp only [Sp.step, Sp.out, hd, Bool.false_eq_true, if_false, if_true, upd_apply]) <;> grind
        case eagerD => have := h.eagerD; have := h.eagerR; (try simp only [Sp.step, Sp.out, hd, Bool.false_eq_true, if_false, if_true, upd_apply]) <;> grind
        case awaited => have := h.awaited; (try simp only [Sp.step, Sp.out, hd, Bool.false_eq_true, if_false, if_true, upd_apply]) <;> grind
        case waitsN => have := h.waitsN; have := h.unrecv; have := h.parkA; (try simp only [Sp.step, Sp.out, hd, Bool.false_eq_true, if_false, if_true, upd_apply]) <;> grind
        case pending => have := h.pending; (try simp only [Sp.step, Sp.out, hd, Bool.false_eq_true, if_false, if_true, upd_apply]) <;> grind
        case log => have := h.log; (try simp only [Sp.step, Sp.out, hd, Bool.false_eq_true, if_false, if_true, upd_apply]) <;> grind
        case rv => have := h.rv; have := h.gone; (try simp only [Sp.step, Sp.out, hd, Bool.false_eq_true, if_false, if_true, upd_apply]) <;> grind
        case once => have := h.once; (try simp only [Sp.step, Sp.out, hd, Bool.false_eq_true, if_false, if_true, upd_apply]) <;> grind
        case killed => have := h.killed; (try simp only [Sp.step, Sp.out, hd, Bool.false_eq_true, if_false, if_true, upd_apply]) <;> grind
        case sub => have h1 := h.sub; (try simp only [Sp.step, Sp.out, hd, Bool.false_eq_true, if_false, if_true, upd_apply]) <;> grind
        case eqs => have h1 := h.eqs; have h2 := h.ended; (try simp only [Sp.step, Sp.out, hd, Bool.false_eq_true, if_false, if_true, upd_apply]) <;> grind
        case eqPre => have h1 := h.eqPre; have h2 := h.eqs; have h3 := h.ended; have h4 := h.gone; (try simp only [Sp.step, Sp.out, hd, Bool.false_eq_true, if_false, if_true, upd_apply]) <;> grind
        case points => have := h.points; (try simp only [Sp.step, Sp.out, hd, Bool.false_eq_true, if_false, if_true, upd_apply]) <;> grind
      | some a =>
        obtain ⟨hk, w, hw, hwx, hwg, hwp, hwe⟩ := h.awaited a haw
        have hl : ∀ g, (a, g) ∉ s.log := by
          intro g hg; obtain ⟨w', h1, h2⟩ := (h.log a g).1 hg; grind
        cases htp : w.toPush with
        | true =>
          simp only [St.put, St.suspend, St.bodyResume, St.wake, St.resumeAw, St.takeResult, St.give, St.finish, hres, hpn, hrv, hub, haw, hw, hwx, hex, htp, hlz, hbuf, if_true, Bool.true_eq_false, Bool.false_eq_true, if_false,
            ne_eq, not_true_eq_false, false_and, and_false, reduceCtorEq]
          constructor
          case ub => have := h.ub; (try simp only [Sp.step, Sp.out, hd, Bool.false_eq_true, if_false, if_true, upd_apply]) <;> grind
          case dropped => have := h.dropped; (try simp only [Sp.step, Sp.out, hd, Bool.false_eq_true, if_false, if_true, upd_apply]) <;> grind
          case ended => have := h.ended; (try simp only [Sp.step, Sp.out, hd, Bool.false_eq_true, if_false, if_true, upd_apply]) <;> grind
          case gone => have := h.gone; (try simp only [Sp.step, Sp.out, hd, Bool.false_eq_true, if_false, if_true, upd_apply]) <;> grind
          case stuck => have := h.stuck; (try simp only [Sp.step, Sp.out, hd, Bool.false_eq_true, if_false, if_true, upd_apply]) <;> grind
          case unrecv => have := h.unrecv; (try simp only [Sp.step, Sp.out, hd, Bool.false_eq_true, if_false, if_true, upd_apply]) <;> grind
          case outs => (try simp only [Sp.step, Sp.out, hd, Bool.false_eq_true, if_false, if_true, upd_apply]) <;> (exact fun _ => by have h1 := h.outs; simp_all [Sp.step, Sp.out, pend, optVal, optErr, ofBody, List.filter_cons])
          case pre => have h1 := h.outs; have h2 := h.pre; have := h.exc; (try simp only [Sp.step, Sp.out, hd, Bool.false_eq_true, if_false, if_true, upd_apply]) <;> grind
          case excBody => have := h.excBody; (try simp only [Sp.step, Sp.out, hd, Bool.false_eq_true, if_false, if_true, upd_apply]) <;> grind
          case buf => have := h.buf; (try simp only [Sp.step, Sp.out, hd, Bool.false_eq_true, if_false, if_true, upd_apply]) <;> grind
          case exc => have := h.exc; (try simp only [Sp.step, Sp.out, hd, Bool.false_eq_true, if_false, if_true, upd_apply]) <;> grind
          case doneA => have := h.doneA; (try simp only [Sp.step, Sp.out, hd, Bool.false_eq_true, if_false, if_true, upd_apply]) <;> grind
          case parkA => have := h.parkA; have := h.gone; (try simp only [Sp.step, Sp.out, hd, Bool.false_eq_true, if_false, if_true, upd_apply]) <;> grind
          case eagerR => have := h.eagerR; (try simp only [Sp.step, Sp.out, hd, Bool.false_eq_true, if_false, if_true, upd_apply]) <;> grind
          case eagerP => have := h.eagerP; have := h.eagerR; (try simp only [Sp.step, Sp.out, hd, Bool.false_eq_true, if_false, if_true, upd_apply]) <;> grind
          case eagerQ => have := h.eagerQ; (try simp only [Sp.step, Sp.out, hd, Bool.false_eq_true, if_false, if_true, upd_apply]) <;> grind
          case lazyR => have := h.lazyR; (try simp only [Sp.step, Sp.out, hd, Bool.false_eq_true, if_false, if_true, upd_apply]) <;> grind
          case eagerD => have := h.eagerD; have := h.eagerR; (try simp only [Sp.step, Sp.out, hd, Bool.false_eq_true, if_false, if_true, upd_apply]) <;> grind
          case awaited => have := h.awaited; (try simp only [Sp.step, Sp.out, hd, Bool.false_eq_true, if_false, if_true, upd_apply]) <;> grind
          case waitsN => have := h.waitsN; have := h.unrecv; have := h.parkA; (try simp only [Sp.step, Sp.out, hd, Bool.false_eq_true, if_false, if_true, upd_apply]) <;> grind
          case pending => have := h.pending; (try simp only [Sp.step, Sp.out, hd, Bool.false_eq_true, if_false, if_true, upd_apply]) <;> grind
          case log => (try simp only [Sp.step, Sp.out, hd, Bool.false_eq_true, if_false, if_true, upd_apply]) <;> (exact logCons (w := { push := w.push, toPush := false, ex := none, got := some (.val u) }) h.log hl rfl (by simp) (fun b hb => by simp [hb]))
          case rv => have := h.rv; have := h.gone; (try simp only [Sp.step, Sp.out, hd, Bool.false_eq_true, if_false, if_true, upd_apply]) <;> grind
          case once => (try simp only [Sp.step, Sp.out, hd, Bool.false_eq_true, if_false, if_true, upd_apply]) <;> (exact onceCons h.once hl)
          case killed => have := h.killed; (try simp only [Sp.step, Sp.out, hd, Bool.false_eq_true, if_false, if_true, upd_apply]) <;> grind
          case sub => have h1 := h.sub; (try simp only [Sp.step, Sp.out, hd, Bool.false_eq_true, if_false, if_true, upd_apply]) <;> grind
          case eqs => have h1 := h.eqs; have h2 := h.ended; (try simp only [Sp.step, Sp.out, hd, Bool.false_eq_true, if_false, if_true, upd_apply]) <;> grind
          case eqPre => have h1 := h.eqPre; have h2 := h.eqs; have h3 := h.ended; have h4 := h.gone; (try simp only [Sp.step, Sp.out, hd, Bool.false_eq_true, if_false, if_true, upd_apply]) <;> grind
          case points => have := h.points; (try simp only [Sp.step, Sp.out, hd, Bool.false_eq_true, if_false, if_true, upd_apply]) <;> grind
        | false =>
          simp only [St.put, St.suspend, St.bodyResume, St.wake, St.resumeAw, St.takeResult, St.give, St.finish, hres, hpn, hrv, hub, haw, hw, hwx, hex, htp, hlz, hbuf, if_true, Bool.true_eq_false, Bool.false_eq_true, if_false,
            ne_eq, not_true_eq_false, false_and, and_false, reduceCtorEq]
          constructor
          case ub => have := h.ub; (try simp only [Sp.step, Sp.out, hd, Bool.false_eq_true, if_false, if_true, upd_apply]) <;> grind
          case dropped => have := h.dropped; (try simp only [Sp.step, Sp.out, hd, Bool.false_eq_true, if_false, if_true, upd_apply]) <;> grind
          case ended => have := h.ended; (try simp only [Sp.step, Sp.out, hd, Bool.false_eq_true, if_false, if_true, upd_apply]) <;> grind
          case gone => have := h.gone; (try simp only [Sp.step, Sp.out, hd, Bool.false_eq_true, if_false, if_true, upd_apply]) <;> grind
          case stuck => have := h.stuck; (try simp only [Sp.step, Sp.out, hd, Bool.false_eq_true, if_false, if_true, upd_apply]) <;> grind
          case unrecv => have := h.unrecv; (try simp only [Sp.step, Sp.out, hd, Bool.false_eq_true, if_false, if_true, upd_apply]) <;> grind
          case outs => (try simp only [Sp.step, Sp.out, hd, Bool.false_eq_true, if_false, if_true, upd_apply]) <;> (exact fun _ => by have h1 := h.outs; simp_all [Sp.step, Sp.out, pend, optVal, optErr, ofBody, List.filter_cons])
          case pre => have h1 := h.outs; have h2 := h.pre; have := h.exc; (try simp only [Sp.step, Sp.out, hd, Bool.false_eq_true, if_false, if_true, upd_apply]) <;> grind
          case excBody => have := h.excBody; (try simp only [Sp.step, Sp.out, hd, Bool.false_eq_true, if_false, if_true, upd_apply]) <;> grind
          case buf => have := h.buf; (try simp only [Sp.step, Sp.out, hd, Bool.false_eq_true, if_false, if_true, upd_apply]) <;> grind
          case exc => have := h.exc; (try simp only [Sp.step, Sp.out, hd, Bool.false_eq_true, if_false, if_true, upd_apply]) <;> grind
          case doneA => have := h.doneA; (try simp only [Sp.step, Sp.out, hd, Bool.false_eq_true, if_false, if_true, upd_apply]) <;> grind
          case parkA => have := h.parkA; have := h.gone; (try simp only [Sp.step, Sp.out, hd, Bool.false_eq_true, if_false, if_true, upd_apply]) <;> grind
          case eagerR => have := h.eagerR; (try simp only [Sp.step, Sp.out, hd, Bool.false_eq_true, if_false, if_true, upd_apply]) <;> grind
          case eagerP => have := h.eagerP; have := h.eagerR; (try simp only [Sp.step, Sp.out, hd, Bool.false_eq_true, if_false, if_true, upd_apply]) <;> grind
          case eagerQ => have := h.eagerQ; (try simp only [Sp.step, Sp.out, hd, Bool.false_eq_true, if_false, if_true, upd_apply]) <;> grind
          case lazyR => have := h.lazyR; (try simp only [Sp.step, Sp.out, hd, Bool.false_eq_true, if_false, if_true, upd_apply]) <;> grind
          case eagerD => have := h.eagerD; have := h.eagerR; (try simp only [Sp.step, Sp.out, hd, Bool.false_eq_true, if_false, if_true, upd_apply]) <;> grind
          case awaited => have := h.awaited; (try simp only [Sp.step, Sp.out, hd, Bool.false_eq_true, if_false, if_true, upd_apply]) <;> grind
          case waitsN => have := h.waitsN; have := h.unrecv; have := h.parkA; (try simp only [Sp.step, Sp.out, hd, Bool.false_eq_true, if_false, if_true, upd_apply]) <;> grind
          case pending => have := h.pending; (try simp only [Sp.step, Sp.out, hd, Bool.false_eq_true, if_false, if_true, upd_apply]) <;> grind
          case log => (try simp only [Sp.step, Sp.out, hd, Bool.false_eq_true, if_false, if_true, upd_apply]) <;> (exact logCons (w := { push := w.push, toPush := false, ex := none, got := some (.val u) }) h.log hl rfl (by simp) (fun b hb => by simp [hb]))
          case rv => have := h.rv; have := h.gone; (try simp only [Sp.step, Sp.out, hd, Bool.false_eq_true, if_false, if_true, upd_apply]) <;> grind
          case once => (try simp only [Sp.step, Sp.out, hd, Bool.false_eq_true, if_false, if_true, upd_apply]) <;> (exact onceCons h.once hl)
          case killed => have := h.killed; (try simp only [Sp.step, Sp.out, hd, Bool.false_eq_true, if_false, if_true, upd_apply]) <;> grind
          case sub => have h1 := h.sub; (try simp only [Sp.step, Sp.out, hd, Bool.false_eq_true, if_false, if_true, upd_apply]) <;> grind
          case eqs => have h1 := h.eqs; have h2 := h.ended; (try simp only [Sp.step, Sp.out, hd, Bool.false_eq_true, if_false, if_true, upd_apply]) <;> grind
          case eqPre => have h1 := h.eqPre; have h2 := h.eqs; have h3 := h.ended; have h4 := h.gone; (try simp only [Sp.step, Sp.out, hd, Bool.false_eq_true, if_false, if_true, upd_apply]) <;> grind
          case points => have := h.points; (try simp only [Sp.step, Sp.out, hd, Bool.false_eq_true, if_false, if_true, upd_apply]) <;> grind

theorem Inv.ret (h : Inv q p s) {v : Nat} (hc : s.can (.ret v) = true) :
    Inv q (p.step (.ret v)) (s.step (.ret v)) := by
  unfold St.step; rw [if_neg (by simp [h.ub, hc])]
  simp only [St.can, beq_iff_eq] at hc
  cases hrv : s.recv with
  | false =>
    have hd : p.dropped = true := by rw [h.dropped, hrv]; rfl
    have hub := h.ub
    simp only [hrv, if_true, Bool.true_eq_false, Bool.false_eq_true, if_false, ne_eq, not_true_eq_false, false_and, and_false, reduceCtorEq, true_and, and_true, not_false_eq_true, and_self, true_or, Option.isSome_none, Option.isSome_some, Bool.or_true, Bool.or_false, Bool.true_or, Bool.false_or, Bool.or_self]
    constructor
    case ub => have := h.ub; (try simp only [Sp.step, Sp.out, hd, Bool.false_eq_true, if_false, if_true, upd_apply]) <;> grind
    case dropped => have := h.dropped; (try simp only [Sp.step, Sp.out, hd, Bool.false_eq_true, if_false, if_true, upd_apply]) <;> grind
    case ended => have := h.ended; (try simp only [Sp.step, Sp.out, hd, Bool.false_eq_true, if_false, if_true, upd_apply]) <;> grind
    case gone => have := h.gone; (try simp only [Sp.step, Sp.out, hd, Bool.false_eq_true, if_false, if_true, upd_apply]) <;> grind
    case stuck => have := h.stuck; (try simp only [Sp.step, Sp.out, hd, Bool.false_eq_true, if_false, if_true, upd_apply]) <;> grind
    case unrecv => have := h.unrecv; (try simp only [Sp.step, Sp.out, hd, Bool.false_eq_true, if_false, if_true, upd_apply]) <;> grind
    case outs => (try simp only [Sp.step, Sp.out, hd, Bool.false_eq_true, if_false, if_true, upd_apply]) <;> (exact fun _ => by have h1 := h.outs; simp_all [Sp.step, Sp.out, pend, optVal, optErr, ofBody, List.filter_cons])
    case pre => have h1 := h.outs; have h2 := h.pre; have := h.exc; (try simp only [Sp.step, Sp.out, hd, Bool.false_eq_true, if_false, if_true, upd_apply]) <;> grind
    case excBody => have := h.excBody; (try simp only [Sp.step, Sp.out, hd, Bool.false_eq_true, if_false, if_true, upd_apply]) <;> grind
    case buf => have := h.buf; (try simp only [Sp.step, Sp.out, hd, Bool.false_eq_true, if_false, if_true, upd_apply]) <;> grind
    case exc => have := h.exc; (try simp only [Sp.step, Sp.out, hd, Bool.false_eq_true, if_false, if_true, upd_apply]) <;> grind
    case doneA => have := h.doneA; (try simp only [Sp.step, Sp.out, hd, Bool.false_eq_true, if_false, if_true, upd_apply]) <;> grind
    case parkA => have := h.parkA; have := h.gone; (try simp only [Sp.step, Sp.out, hd, Bool.false_eq_true, if_false, if_true, upd_apply]) <;> grind
    case eagerR => have := h.eagerR; (try simp only [Sp.step, Sp.out, hd, Bool.false_eq_true, if_false, if_true, upd_apply]) <;> grind
    case eagerP => have := h.eagerP; have := h.eagerR; (try simp only [Sp.step, Sp.out, hd, Bool.false_eq_true, if_false, if_true, upd_apply]) <;> grind
    case eagerQ => have := h.eagerQ; (try simp only [Sp.step, Sp.out, hd, Bool.false_eq_true, if_false, if_true, upd_apply]) <;> grind
    case lazyR => have := h.lazyR; (try simp only [Sp.step, Sp.out, hd, Bool.false_eq_true, if_false, if_true, upd_apply]) <;> grind
    case eagerD => have := h.eagerD; have := h.eagerR; (try simp only [Sp.step, Sp.out, hd, Bool.false_eq_true, if_false, if_true, upd_apply]) <;> grind
    case awaited => have := h.awaited; (try simp only [Sp.step, Sp.out, hd, Bool.false_eq_true, if_false, if_true, upd_apply]) <;> grind
    case waitsN => have := h.waitsN; have := h.unrecv; have := h.parkA; (try simp only [Sp.step, Sp.out, hd, Bool.false_eq_true, if_false, if_true, upd_apply]) <;> grind
    case pending => have := h.pending; (try simp only [Sp.step, Sp.out, hd, Bool.false_eq_true, if_false, if_true, upd_apply]) <;> grind
    case log => have := h.log; (try simp only [Sp.step, Sp.out, hd, Bool.false_eq_true, if_false, if_true, upd_apply]) <;> grind
    case rv => have := h.rv; have := h.gone; (try simp only [Sp.step, Sp.out, hd, Bool.false_eq_true, if_false, if_true, upd_apply]) <;> grind
    case once => have := h.once; (try simp only [Sp.step, Sp.out, hd, Bool.false_eq_true, if_false, if_true, upd_apply]) <;> grind
    case killed => have := h.killed; (try simp only [Sp.step, Sp.out, hd, Bool.false_eq_true, if_false, if_true, upd_apply]) <;> grind
    case sub => have h1 := h.sub; (try simp only [Sp.step, Sp.out, hd, Bool.false_eq_true, if_false, if_true, upd_apply]) <;> grind
    case eqs => have h1 := h.eqs; have h2 := h.ended; (try simp only [Sp.step, Sp.out, hd, Bool.false_eq_true, if_false, if_true, upd_apply]) <;> grind
    case eqPre => have h1 := h.eqPre; have h2 := h.eqs; have h3 := h.ended; have h4 := h.gone; (try simp only [Sp.step, Sp.out, hd, Bool.false_eq_true, if_false, if_true, upd_apply]) <;> grind
    case points => have := h.points; (try simp only [Sp.step, Sp.out, hd, Bool.false_eq_true, if_false, if_true, upd_apply]) <;> grind
  | true =>
    have hd : p.dropped = false := by rw [h.dropped, hrv]; rfl
    have hub := h.ub
    have hdn : s.done = false := by
      cases hx : s.done with
      | false => rfl
      | true => have := (h.gone hrv).1 hx; rw [hc] at this; simp at this
    have hex : s.exc = none := by
      cases hx : s.exc with
      | none => rfl
      | some e => have := (h.exc e hx).2; rw [hdn] at this; simp at this
    cases hres : s.result with
    | none =>
      have hbuf : s.buffer = none := by
        cases hx : s.buffer with
        | none => rfl
        | some e => exact absurd hres (h.buf e hx).1
      cases haw : s.awaited with
      | none =>
        simp only [St.put, St.suspend, St.bodyResume, St.wake, St.resumeAw, St.takeResult, St.give, St.finish, hrv, hub, haw, hc, hres, hbuf, if_true, Bool.true_eq_false, Bool.false_eq_true, if_false, ne_eq, not_true_eq_false, false_and, and_false, reduceCtorEq, true_and, and_true, not_false_eq_true, and_self, true_or, Option.isSome_none, Option.isSome_some, Bool.or_true, Bool.or_false, Bool.true_or, Bool.false_or, Bool.or_self]
        constructor
        case ub => have := h.ub; (try simp only [Sp.step, Sp.out, hd, Bool.false_eq_true, if_false, if_true, upd_apply]) <;> grind
        case dropped => have := h.dropped; (try simp only [Sp.step, Sp.out, hd, Bool.false_eq_true, if_false, if_true, upd_apply]) <;> grind
        case ended => have := h.ended; (try simp only [Sp.step, Sp.out, hd, Bool.false_eq_true, if_false, if_true, upd_apply]) <;> grind
        case gone => have := h.gone; (try simp only [Sp.step, Sp.out, hd, Bool.false_eq_true, if_false, if_true, upd_apply]) <;> grind
        case stuck => have := h.stuck; (try simp only [Sp.step, Sp.out, hd, Bool.false_eq_true, if_false, if_true, upd_apply]) <;> grind
        case unrecv => have := h.unrecv; (try simp only [Sp.step, Sp.out, hd, Bool.false_eq_true, if_false, if_true, upd_apply]) <;> grind
        case outs => (try simp only [Sp.step, Sp.out, hd, Bool.false_eq_true, if_false, if_true, upd_apply]) <;> (exact fun _ => by have h1 := h.outs; simp_all [Sp.step, Sp.out, pend, optVal, optErr, ofBody, List.filter_cons])
        case pre => have h1 := h.outs; have h2 := h.pre; have := h.exc; (try simp only [Sp.step, Sp.out, hd, Bool.false_eq_true, if_false, if_true, upd_apply]) <;> grind
        case excBody => have := h.excBody; (try simp only [Sp.step, Sp.out, hd, Bool.false_eq_true, if_false, if_true, upd_apply]) <;> grind
        case buf => have := h.buf; (try simp only [Sp.step, Sp.out, hd, Bool.false_eq_true, if_false, if_true, upd_apply]) <;> grind
        case exc => have := h.exc; (try simp only [Sp.step, Sp.out, hd, Bool.false_eq_true, if_false, if_true, upd_apply]) <;> grind
        case doneA => have := h.doneA; (try simp only [Sp.step, Sp.out, hd, Bool.false_eq_true, if_false, if_true, upd_apply]) <;> grind
        case parkA => have := h.parkA; have := h.gone; (try simp only [Sp.step, Sp.out, hd, Bool.false_eq_true, if_false, if_true, upd_apply]) <;> grind
        case eagerR => have := h.eagerR; (try simp only [Sp.step, Sp.out, hd, Bool.false_eq_true, if_false, if_true, upd_apply]) <;> grind
        case eagerP => have := h.eagerP; have := h.eagerR; (try simp only [Sp.step, Sp.out, hd, Bool.false_eq_true, if_false, if_true, upd_apply]) <;> grind
        case eagerQ => have := h.eagerQ; (try simp only [Sp.step, Sp.out, hd, Bool.false_eq_true, if_false, if_true, upd_apply]) <;> grind
        case lazyR => have := h.lazyR; (try simp only [Sp.step, Sp.out, hd, Bool.false_eq_true, if_false, if_true, upd_apply]) <;> grind
        case eagerD => have := h.eagerD; have := h.eagerR; (try simp only [Sp.step, Sp.out, hd, Bool.false_eq_true, if_false, if_true, upd_apply]) <;> grind
        case awaited => have := h.awaited; (try simp only [Sp.step, Sp.out, hd, Bool.false_eq_true, if_false, if_true, upd_apply]) <;> grind
        case waitsN => have := h.waitsN; have := h.unrecv; have := h.parkA; (try simp only [Sp.step, Sp.out, hd, Bool.false_eq_true, if_false, if_true, upd_apply]) <;> grind
        case pending => have := h.pending; (try simp only [Sp.step, Sp.out, hd, Bool.false_eq_true, if_false, if_true, upd_apply]) <;> grind
        case log => have := h.log; (try simp only [Sp.step, Sp.out, hd, Bool.false_eq_true, if_false, if_true, upd_apply]) <;> grind
        case rv => have := h.rv; have := h.gone; (try simp only [Sp.step, Sp.out, hd, Bool.false_eq_true, if_false, if_true, upd_apply]) <;> grind
        case once => have := h.once; (try simp only [Sp.step, Sp.out, hd, Bool.false_eq_true, if_false, if_true, upd_apply]) <;> grind
        case killed => have := h.killed; (try simp only [Sp.step, Sp.out, hd, Bool.false_eq_true, if_false, if_true, upd_apply]) <;> grind
        case sub => have h1 := h.sub; (try simp only [Sp.step, Sp.out, hd, Bool.false_eq_true, if_false, if_true, upd_apply]) <;> grind
        case eqs => have h1 := h.eqs; have h2 := h.ended; (try simp only [Sp.step, Sp.out, hd, Bool.false_eq_true, if_false, if_true, upd_apply]) <;> grind
        case eqPre => have h1 := h.eqPre; have h2 := h.eqs; have h3 := h.ended; have h4 := h.gone; (try simp only [Sp.step, Sp.out, hd, Bool.false_eq_true, if_false, if_true, upd_apply]) <;> grind
        case points => have := h.points; (try simp only [Sp.step, Sp.out, hd, Bool.false_eq_true, if_false, if_true, upd_apply]) <;> grind
      | some a =>
        obtain ⟨hk, w, hw, hwx, hwg, hwp, hwe⟩ := h.awaited a haw
        have hl : ∀ g, (a, g) ∉ s.log := by
          intro g hg; obtain ⟨w', h1, h2⟩ := (h.log a g).1 hg; grind
        have hpn : w.toPush = true → s.pushed = none := by have := h.eagerR; grind
        cases htp : w.toPush with
        | true =>
          simp only [St.put, St.suspend, St.bodyResume, St.wake, St.resumeAw, St.takeResult, St.give, St.finish, hrv, hub, haw, hw, hwx, hex, htp, hpn htp, hres, hbuf, if_true, Bool.true_eq_false, Bool.false_eq_true, if_false, ne_eq, not_true_eq_false, false_and, and_false, reduceCtorEq, true_and, and_true, not_false_eq_true, and_self, true_or, Option.isSome_none, Option.isSome_some, Bool.or_true, Bool.or_false, Bool.true_or, Bool.false_or, Bool.or_self]
          constructor
          case ub => have := h.ub; (try simp only [Sp.step, Sp.out, hd, Bool.false_eq_true, if_false, if_true, upd_apply]) <;> grind
          case dropped => have := h.dropped; (try simp only [Sp.step, Sp.out, hd, Bool.false_eq_true, if_false, if_true, upd_apply]) <;> grind
          case ended => have := h.ended; (try simp only [Sp.step, Sp.out, hd, Bool.false_eq_true, if_false, if_true, upd_apply]) <;> grind
          case gone => have := h.gone; (try simp only [Sp.step, Sp.out, hd, Bool.false_eq_true, if_false, if_true, upd_apply]) <;> grind
          case stuck => have := h.stuck; (try simp only [Sp.step, Sp.out, hd, Bool.false_eq_true, if_false, if_true, upd_apply]) <;> grind
          case unrecv => have := h.unrecv; (try simp only [Sp.step, Sp.out, hd, Bool.false_eq_true, if_false, if_true, upd_apply]) <;> grind
          case outs => (try simp only [Sp.step, Sp.out, hd, Bool.false_eq_true, if_false, if_true, upd_apply]) <;> (exact fun _ => by have h1 := h.outs; simp_all [Sp.step, Sp.out, pend, optVal, optErr, ofBody, List.filter_cons])
          case pre => have h1 := h.outs; have h2 := h.pre; have := h.exc; (try simp only [Sp.step, Sp.out, hd, Bool.false_eq_true, if_false, if_true, upd_apply]) <;> grind
          case excBody => have := h.excBody; (try simp only [Sp.step, Sp.out, hd, Bool.false_eq_true, if_false, if_true, upd_apply]) <;> grind
          case buf => have := h.buf; (try simp only [Sp.step, Sp.out, hd, Bool.false_eq_true, if_false, if_true, upd_apply]) <;> grind
          case exc => have := h.exc; (try simp only [Sp.step, Sp.out, hd, Bool.false_eq_true, if_false, if_true, upd_apply]) <;> grind
          case doneA => have := h.doneA; (try simp only [Sp.step, Sp.out, hd, Bool.false_eq_true, if_false, if_true, upd_apply]) <;> grind
          case parkA => have := h.parkA; have := h.gone; (try simp only [Sp.step, Sp.out, hd, Bool.false_eq_true, if_false, if_true, upd_apply]) <;> grind
          case eagerR => have := h.eagerR; (try simp only [Sp.step, Sp.out, hd, Bool.false_eq_true, if_false, if_true, upd_apply]) <;> grind
          case eagerP => have := h.eagerP; have := h.eagerR; (try simp only [Sp.step, Sp.out, hd, Bool.false_eq_true, if_false, if_true, upd_apply]) <;> grind
          case eagerQ => have := h.eagerQ; (try simp only [Sp.step, Sp.out, hd, Bool.false_eq_true, if_false, if_true, upd_apply]) <;> grind
          case lazyR => have := h.lazyR; (try simp only [Sp.step, Sp.out, hd, Bool.false_eq_true, if_false, if_true, upd_apply]) <;> grind
          case eagerD => have := h.eagerD; have := h.eagerR; (try simp only [Sp.step, Sp.out, hd, Bool.false_eq_true, if_false, if_true, upd_apply]) <;> grind
          case awaited => have := h.awaited; (try simp only [Sp.step, Sp.out, hd, Bool.false_eq_true, if_false, if_true, upd_apply]) <;> grind
          case waitsN => have := h.waitsN; have := h.unrecv; have := h.parkA; (try simp only [Sp.step, Sp.out, hd, Bool.false_eq_true, if_false, if_true, upd_apply]) <;> grind
          case pending => have := h.pending; (try simp only [Sp.step, Sp.out, hd, Bool.false_eq_true, if_false, if_true, upd_apply]) <;> grind
          case log => (try simp only [Sp.step, Sp.out, hd, Bool.false_eq_true, if_false, if_true, upd_apply]) <;> (exact logCons (w := { push := w.push, toPush := false, ex := none, got := some (.val v) }) h.log hl rfl (by simp) (fun b hb => by simp [hb]))
          case rv => have := h.rv; have := h.gone; (try simp only [Sp.step, Sp.out, hd, Bool.false_eq_true, if_false, if_true, upd_apply]) <;> grind
          case once => (try simp only [Sp.step, Sp.out, hd, Bool.false_eq_true, if_false, if_true, upd_apply]) <;> (exact onceCons h.once hl)
          case killed => have := h.killed; (try simp only [Sp.step, Sp.out, hd, Bool.false_eq_true, if_false, if_true, upd_apply]) <;> grind
          case sub => have h1 := h.sub; (try simp only [Sp.step, Sp.out, hd, Bool.false_eq_true, if_false, if_true, upd_apply]) <;> grind
          case eqs => have h1 := h.eqs; have h2 := h.ended; (try simp only [Sp.step, Sp.out, hd, Bool.false_eq_true, if_false, if_true, upd_apply]) <;> grind
          case eqPre => have h1 := h.eqPre; have h2 := h.eqs; have h3 := h.ended; have h4 := h.gone; (try simp only [Sp.step, Sp.out, hd, Bool.false_eq_true, if_false, if_true, upd_apply]) <;> grind
          case points => have := h.points; (try simp only [Sp.step, Sp.out, hd, Bool.false_eq_true, if_false, if_true, upd_apply]) <;> grind
        | false =>
          simp only [St.put, St.suspend, St.bodyResume, St.wake, St.resumeAw, St.takeResult, St.give, St.finish, hrv, hub, haw, hw, hwx, hex, htp, hres, hbuf, if_true, Bool.true_eq_false, Bool.false_eq_true, if_false, ne_eq, not_true_eq_false, false_and, and_false, reduceCtorEq, true_and, and_true, not_false_eq_true, and_self, true_or, Option.isSome_none, Option.isSome_some, Bool.or_true, Bool.or_false, Bool.true_or, Bool.false_or, Bool.or_self]
          constructor
          case ub => have := h.ub; (try simp only [Sp.step, Sp.out, hd, Bool.false_eq_true, if_false, if_true, upd_apply]) <;> grind
          case dropped => have := h.dropped; (try simp only [Sp.step, Sp.out, hd, Bool.false_eq_true, if_false, if_true, upd_apply]) <;> grind
          case ended => have := h.ended; (try simp only [Sp.step, Sp.out, hd, Bool.false_eq_true, if_false, if_true, upd_apply]) <;> grind
          case gone => have := h.gone; (try simp only [Sp.step, Sp.out, hd, Bool.false_eq_true, if_false, if_true, upd_apply]) <;> grind
          case stuck => have := h.stuck; (try simp only [Sp.step, Sp.out, hd, Bool.false_eq_true, if_false, if_true, upd_apply]) <;> grind
          case unrecv => have := h.unrecv; (try simp only [Sp.step, Sp.out, hd, Bool.false_eq_true, if_false, if_true, upd_apply]) <;> grind
          case outs => (try simp only [Sp.step, Sp.out, hd, Bool.false_eq_true, if_false, if_true, upd_apply]) <;> (exact fun _ => by have h1 := h.outs; simp_all [Sp.step, Sp.out, pend, optVal, optErr, ofBody, List.filter_cons])
          case pre => have h1 := h.outs; have h2 := h.pre; have := h.exc; (try simp only [Sp.step, Sp.out, hd, Bool.false_eq_true, if_false, if_true, upd_apply]) <;> grind
          case excBody => have := h.excBody; (try simp only [Sp.step, Sp.out, hd, Bool.false_eq_true, if_false, if_true, upd_apply]) <;> grind
          case buf => have := h.buf; (try simp only [Sp.step, Sp.out, hd, Bool.false_eq_true, if_false, if_true, upd_apply]) <;> grind
          case exc => have := h.exc; (try simp only [Sp.step, Sp.out, hd, Bool.false_eq_true, if_false, if_true, upd_apply]) <;> grind
          case doneA => have := h.doneA; (try simp only [Sp.step, Sp.out, hd, Bool.false_eq_true, if_false, if_true, upd_apply]) <;> grind
          case parkA => have := h.parkA; have := h.gone; (try simp only [Sp.step, Sp.out, hd, Bool.false_eq_true, if_false, if_true, upd_apply]) <;> grind
          case eagerR => have := h.eagerR; (try simp only [Sp.step, Sp.out, hd, Bool.false_eq_true, if_false, if_true, upd_apply]) <;> grind
          case eagerP => have := h.eagerP; have := h.eagerR; (try simp only [Sp.step, Sp.out, hd, Bool.false_eq_true, if_false, if_true, upd_apply]) <;> grind
          case eagerQ => have := h.eagerQ; (try simp only [Sp.step, Sp.out, hd, Bool.false_eq_true, if_false, if_true, upd_apply]) <;> grind
          case lazyR => have := h.lazyR; (try simp only [Sp.step, Sp.out, hd, Bool.false_eq_true, if_false, if_true, upd_apply]) <;> grind
          case eagerD => have := h.eagerD; have := h.eagerR; (try simp only [Sp.step, Sp.out, hd, Bool.false_eq_true, if_false, if_true, upd_apply]) <;> grind
          case awaited => have := h.awaited; (try simp only [Sp.step, Sp.out, hd, Bool.false_eq_true, if_false, if_true, upd_apply]) <;> grind
          case waitsN => have := h.waitsN; have := h.unrecv; have := h.parkA; (try simp only [Sp.step, Sp.out, hd, Bool.false_eq_true, if_false, if_true, upd_apply]) <;> grind
          case pending => have := h.pending; (try simp only [Sp.step, Sp.out, hd, Bool.false_eq_true, if_false, if_true, upd_apply]) <;> grind
          case log => (try simp only [Sp.step, Sp.out, hd, Bool.false_eq_true, if_false, if_true, upd_apply]) <;> (exact logCons (w := { push := w.push, toPush := false, ex := none, got := some (.val v) }) h.log hl rfl (by simp) (fun b hb => by simp [hb]))
          case rv => have := h.rv; have := h.gone; (try simp only [Sp.step, Sp.out, hd, Bool.false_eq_true, if_false, if_true, upd_apply]) <;> grind
          case once => (try simp only [Sp.step, Sp.out, hd, Bool.false_eq_true, if_false, if_true, upd_apply]) <;> (exact onceCons h.once hl)
          case killed => have := h.killed; (try simp only [Sp.step, Sp.out, hd, Bool.false_eq_true, if_false, if_true, upd_apply]) <;> grind
          case sub => have h1 := h.sub; (try simp only [Sp.step, Sp.out, hd, Bool.false_eq_true, if_false, if_true, upd_apply]) <;> grind
          case eqs => have h1 := h.eqs; have h2 := h.ended; (try simp only [Sp.step, Sp.out, hd, Bool.false_eq_true, if_false, if_true, upd_apply]) <;> grind
          case eqPre => have h1 := h.eqPre; have h2 := h.eqs; have h3 := h.ended; have h4 := h.gone; (try simp only [Sp.step, Sp.out, hd, Bool.false_eq_true, if_false, if_true, upd_apply]) <;> grind
          case points => have := h.points; (try simp only [Sp.step, Sp.out, hd, Bool.false_eq_true, if_false, if_true, upd_apply]) <;> grind
    | some u =>
      obtain ⟨hlz, hvd, hpn0, hbuf⟩ := h.lazyR hrv hc (by simp [hres])
      cases haw : s.awaited with
      | none =>
        simp only [St.put, St.suspend, St.bodyResume, St.wake, St.resumeAw, St.takeResult, St.give, St.finish, hrv, hub, haw, hc, hres, hbuf, if_true, Bool.true_eq_false, Bool.false_eq_true, if_false, ne_eq, not_true_eq_false, false_and, and_false, reduceCtorEq, true_and, and_true, not_false_eq_true, and_self, true_or, Option.isSome_none, Option.isSome_some, Bool.or_true, Bool.or_false, Bool.true_or, Bool.false_or, Bool.or_self]
        constructor
        case ub => have := h.ub; (try simp only [Sp.step, Sp.out, hd, Bool.false_eq_true, if_false, if_true, upd_apply]) <;> grind
        case dropped => have := h.dropped; (try simp only [Sp.step, Sp.out, hd, Bool.false_eq_true, if_false, if_true, upd_apply]) <;> grind
        case ended => have := h.ended; (try simp only [Sp.step, Sp.out, hd, Bool.false_eq_true, if_false, if_true, upd_apply]) <;> grind
        case gone => have := h.gone; (try simp only [Sp.step, Sp.out, hd, Bool.false_eq_true, if_false, if_true, upd_apply]) <;> grind
        case stuck => have := h.stuck; (try simp only [Sp.step, Sp.out, hd, Bool.false_eq_true, if_false, if_true, upd_apply]) <;> grind
        case unrecv => have := h.unrecv; (try simp only [Sp.step, Sp.out, hd, Bool.false_eq_true, if_false, if_true, upd_apply]) <;> grind
        case outs => (try simp only [Sp.step, Sp.out, hd, Bool.false_eq_true, if_false, if_true, upd_apply]) <;> (exact fun _ => by have h1 := h.outs; simp_all [Sp.step, Sp.out, pend, optVal, optErr, ofBody, List.filter_cons])
        case pre => have h1 := h.outs; have h2 := h.pre; have := h.exc; (try simp only [Sp.step, Sp.out, hd, Bool.false_eq_true, if_false, if_true, upd_apply]) <;> grind
        case excBody => have := h.excBody; (try simp only [Sp.step, Sp.out, hd, Bool.false_eq_true, if_false, if_true, upd_apply]) <;> grind
        case buf => have := h.buf; (try simp only [Sp.step, Sp.out, hd, Bool.false_eq_true, if_false, if_true, upd_apply]) <;> grind
        case exc => have := h.exc; (try simp only [Sp.step, Sp.out, hd, Bool.false_eq_true, if_false, if_true, upd_apply]) <;> grind
        case doneA => have := h.doneA; (try simp only [Sp.step, Sp.out, hd, Bool.false_eq_true, if_false, if_true, upd_apply]) <;> grind
        case parkA => have := h.parkA; have := h.gone; (try simp only [Sp.step, Sp.out, hd, Bool.false_eq_true, if_false, if_true, upd_apply]) <;> grind
        case eagerR => have := h.eagerR; (try simp only [Sp.step, Sp.out, hd, Bool.false_eq_true, if_false, if_true, upd_apply]) <;> grind
        case eagerP => have := h.eagerP; have := h.eagerR; (try simp only [Sp.step, Sp.out, hd, Bool.false_eq_true, if_false, if_true, upd_apply]) <;> grind
        case eagerQ => have := h.eagerQ; (try simp only [Sp.step, Sp.out, hd, Bool.false_eq_true, if_false, if_true, upd_apply]) <;> grind
        case lazyR => have := h.lazyR; (try simp only [Sp.step, Sp.out, hd, Bool.false_eq_true, if_false, if_true, upd_apply]) <;> grind
        case eagerD => have := h.eagerD; have := h.eagerR; (try simp only [Sp.step, Sp.out, hd, Bool.false_eq_true, if_false, if_true, upd_apply]) <;> grind
        case awaited => have := h.awaited; (try simp only [Sp.step, Sp.out, hd, Bool.false_eq_true, if_false, if_true, upd_apply]) <;> grind
        case waitsN => have := h.waitsN; have := h.unrecv; have := h.parkA; (try simp only [Sp.step, Sp.out, hd, Bool.false_eq_true, if_false, if_true, upd_apply]) <;> grind
        case pending => have := h.pending; (try simp only [Sp.step, Sp.out, hd, Bool.false_eq_true, if_false, if_true, upd_apply]) <;> grind
        case log => have := h.log; (try simp only [Sp.step, Sp.out, hd, Bool.false_eq_true, if_false, if_true, upd_apply]) <;> grind
        case rv => have := h.rv; have := h.gone; (try simp only [Sp.step, Sp.out, hd, Bool.false_eq_true, if_false, if_true, upd_apply]) <;> grind
        case once => have := h.once; (try simp only [Sp.step, Sp.out, hd, Bool.false_eq_true, if_false, if_true, upd_apply]) <;> grind
        case killed => have := h.killed; (try simp only [Sp.step, Sp.out, hd, Bool.false_eq_true, if_false, if_true, upd_apply]) <;> grind
        case sub => have h1 := h.sub; (try simp only [Sp.step, Sp.out, hd, Bool.false_eq_true, if_false, if_true, upd_apply]) <;> grind
        case eqs => have h1 := h.eqs; have h2 := h.ended; (try simp only [Sp.step, Sp.out, hd, Bool.false_eq_true, if_false, if_true, upd_apply]) <;> grind
        case eqPre => have h1 := h.eqPre; have h2 := h.eqs; have h3 := h.ended; have h4 := h.gone; (try simp only [Sp.step, Sp.out, hd, Bool.false_eq_true, if_false, if_true, upd_apply]) <;> grind
        case points => have := h.points; (try simp only [Sp.step, Sp.out, hd, Bool.false_eq_true, if_false, if_true, upd_apply]) <;> grind
      | some a =>
        obtain ⟨hk, w, hw, hwx, hwg, hwp, hwe⟩ := h.awaited a haw
        have hl : ∀ g, (a, g) ∉ s.log := by
          intro g hg; obtain ⟨w', h1, h2⟩ := (h.log a g).1 hg; grind
        have hpn : w.toPush = true → s.pushed = none := by have := h.eagerR; grind
        cases htp : w.toPush with
        | true =>
          simp only [St.put, St.suspend, St.bodyResume, St.wake, St.resumeAw, St.takeResult, St.give, St.finish, hrv, hub, haw, hw, hwx, hex, htp, hpn htp, hres, hbuf, if_true, Bool.true_eq_false, Bool.false_eq_true, if_false, ne_eq, not_true_eq_false, false_and, and_false, reduceCtorEq, true_and, and_true, not_false_eq_true, and_self, true_or, Option.isSome_none, Option.isSome_some, Bool.or_true, Bool.or_false, Bool.true_or, Bool.false_or, Bool.or_self]
          constructor
          case ub => have := h.ub; (try simp only [Sp.step, Sp.out, hd, Bool.false_eq_true, if_false, if_true, upd_apply]) <;> grind
          case dropped => have := h.dropped; (try simp only [Sp.step, Sp.out, hd, Bool.false_eq_true, if_false, if_true, upd_apply]) <;> grind
          case ended => have := h.ended; (try simp only [Sp.step, Sp.out, hd, Bool.false_eq_true, if_false, if_true, upd_apply]) <;> grind
          case gone => have := h.gone; (try simp only [Sp.step, Sp.out, hd, Bool.false_eq_true, if_false, if_true, upd_apply]) <;> grind
          case stuck => have := h.stuck; (try simp only [Sp.step, Sp.out, hd, Bool.false_eq_true, if_false, if_true, upd_apply]) <;> grind
          case unrecv => have := h.unrecv; (try simp only [Sp.step, Sp.out, hd, Bool.false_eq_true, if_false, if_true, upd_apply]) <;> grind
          case outs => (try simp only [Sp.step, Sp.out, hd, Bool.false_eq_true, if_false, if_true, upd_apply]) <;> (exact fun _ => by have h1 := h.outs; simp_all [Sp.step, Sp.out, pend, optVal, optErr, ofBody, List.filter_cons])
          case pre => have h1 := h.outs; have h2 := h.pre; have := h.exc; (try simp only [Sp.step, Sp.out, hd, Bool.false_eq_true, if_false, if_true, upd_apply]) <;> grind
          case excBody => have := h.excBody; (try simp only [Sp.step, Sp.out, hd, Bool.false_eq_true, if_false, if_true, upd_apply]) <;> grind
          case buf => have := h.buf; (try simp only [Sp.step, Sp.out, hd, Bool.false_eq_true, if_false, if_true, upd_apply]) <;> grind
          case exc => have := h.exc; (try simp only [Sp.step, Sp.out, hd, Bool.false_eq_true, if_false, if_true, upd_apply]) <;> grind
          case doneA => have := h.doneA; (try simp only [Sp.step, Sp.out, hd, Bool.false_eq_true, if_false, if_true, upd_apply]) <;> grind
          case parkA => have := h.parkA; have := h.gone; (try simp only [Sp.step, Sp.out, hd, Bool.false_eq_true, if_false, if_true, upd_apply]) <;> grind
          case eagerR => have := h.eagerR; (try simp only [Sp.step, Sp.out, hd, Bool.false_eq_true, if_false, if_true, upd_apply]) <;> grind
          case eagerP => have := h.eagerP; have := h.eagerR; (try simp only [Sp.step, Sp.out, hd, Bool.false_eq_true, if_false, if_true, upd_apply]) <;> grind
          case eagerQ => have := h.eagerQ; (try simp only [Sp.step, Sp.out, hd, Bool.false_eq_true, if_false, if_true, upd_apply]) <;> grind
          case lazyR => have := h.lazyR; (try simp only [Sp.step, Sp.out, hd, Bool.false_eq_true, if_false, if_true, upd_apply]) <;> grind
          case eagerD => have := h.eagerD; have := h.eagerR; (try simp only [Sp.step, Sp.out, hd, Bool.false_eq_true, if_false, if_true, upd_apply]) <;> grind
          case awaited => have := h.awaited; (try simp only [Sp.step, Sp.out, hd, Bool.false_eq_true, if_false, if_true, upd_apply]) <;> grind
          case waitsN => have := h.waitsN; have := h.unrecv; have := h.parkA; (try simp only [Sp.step, Sp.out, hd, Bool.false_eq_true, if_false, if_true, upd_apply]) <;> grind
          case pending => have := h.pending; (try simp only [Sp.step, Sp.out, hd, Bool.false_eq_true, if_false, if_true, upd_apply]) <;> grind
          case log => (try simp only [Sp.step, Sp.out, hd, Bool.false_eq_true, if_false, if_true, upd_apply]) <;> (exact logCons (w := { push := w.push, toPush := false, ex := none, got := some (.val u) }) h.log hl rfl (by simp) (fun b hb => by simp [hb]))
          case rv => have := h.rv; have := h.gone; (try simp only [Sp.step, Sp.out, hd, Bool.false_eq_true, if_false, if_true, upd_apply]) <;> grind
          case once => (try simp only [Sp.step, Sp.out, hd, Bool.false_eq_true, if_false, if_true, upd_apply]) <;> (exact onceCons h.once hl)
          case killed => have := h.killed; (try simp only [Sp.step, Sp.out, hd, Bool.false_eq_true, if_false, if_true, upd_apply]) <;> grind
          case sub => have h1 := h.sub; (try simp only [Sp.step, Sp.out, hd, Bool.false_eq_true, if_false, if_true, upd_apply]) <;> grind
          case eqs => have h1 := h.eqs; have h2 := h.ended; (try simp only [Sp.step, Sp.out, hd, Bool.false_eq_true, if_false, if_true, upd_apply]) <;> grind
          case eqPre => have h1 := h.eqPre; have h2 := h.eqs; have h3 := h.ended; have h4 := h.gone; (try simp only [Sp.step, Sp.out, hd, Bool.false_eq_true, if_false, if_true, upd_apply]) <;> grind
          case points => have := h.points; (try simp only [Sp.step, Sp.out, hd, Bool.false_eq_true, if_false, if_true, upd_apply]) <;> grind
        | false =>
          simp only [St.put, St.suspend, St.bodyResume, St.wake, St.resumeAw, St.takeResult, St.give, St.finish, hrv, hub, haw, hw, hwx, hex, htp, hres, hbuf, if_true, Bool.true_eq_false, Bool.false_eq_true, if_false, ne_eq, not_true_eq_false, false_and, and_false, reduceCtorEq, true_and, and_true, not_false_eq_true, and_self, true_or, Option.isSome_none, Option.isSome_some, Bool.or_true, Bool.or_false, Bool.true_or, Bool.false_or, Bool.or_self]
          constructor
          case ub => have := h.ub; (try simp only [Sp.step, Sp.out, hd, Bool.false_eq_true, if_false, if_true, upd_apply]) <;> grind
          case dropped => have := h.dropped; (try simp only [Sp.step, Sp.out, hd, Bool.false_eq_true, if_false, if_true, upd_apply]) <;> grind
          case ended => have := h.ended; (try simp only [Sp.step, Sp.out, hd, Bool.false_eq_true, if_false, if_true, upd_apply]) <;> grind
          case gone => have := h.gone; (try simp only [Sp.step, Sp.out, hd, Bool.false_eq_true, if_false, if_true, upd_apply]) <;> grind
          case stuck => have := h.stuck; (try simp only [Sp.step, Sp.out, hd, Bool.false_eq_true, if_false, if_true, upd_apply]) <;> grind
          case unrecv => have := h.unrecv; (try simp only [Sp.step, Sp.out, hd, Bool.false_eq_true, if_false, if_true, upd_apply]) <;> grind
          case outs => (try simp only [Sp.step, Sp.out, hd, Bool.false_eq_true, if_false, if_true, upd_apply]) <;> (exact fun _ => by have h1 := h.outs; simp_all [Sp.step, Sp.out, pend, optVal, optErr, ofBody, List.filter_cons])
          case pre => have h1 := h.outs; have h2 := h.pre; have := h.exc; (try simp only [Sp.step, Sp.out, hd, Bool.false_eq_true, if_false, if_true, upd_apply]) <;> grind
          case excBody => have := h.excBody; (try simp only [Sp.step, Sp.out, hd, Bool.false_eq_true, if_false, if_true, upd_apply]) <;> grind
          case buf => have := h.buf; (try simp only [Sp.step, Sp.out, hd, Bool.false_eq_true, if_false, if_true, upd_apply]) <;> grind
          case exc => have := h.exc; (try simp only [Sp.step, Sp.out, hd, Bool.false_eq_true, if_false, if_true, upd_apply]) <;> grind
          case doneA => have := h.doneA; (try simp only [Sp.step, Sp.out, hd, Bool.false_eq_true, if_false, if_true, upd_apply]) <;> grind
          case parkA => have := h.parkA; have := h.gone; (try simp only [Sp.step, Sp.out, hd, Bool.false_eq_true, if_false, if_true, upd_apply]) <;> grind
          case eagerR => have := h.eagerR; (try simp only [Sp.step, Sp.out, hd, Bool.false_eq_true, if_false, if_true, upd_apply]) <;> grind
          case eagerP => have := h.eagerP; have := h.eagerR; (try simp only [Sp.step, Sp.out, hd, Bool.false_eq_true, if_false, if_true, upd_apply]) <;> grind
          case eagerQ => have := h.eagerQ; (try simp only [Sp.step, Sp.out, hd, Bool.false_eq_true, if_false, if_true, upd_apply]) <;> grind
          case lazyR => have := h.lazyR; (try simp only [Sp.step, Sp.out, hd, Bool.false_eq_true, if_false, if_true, upd_apply]) <;> grind
          case eagerD => have := h.eagerD; have := h.eagerR; (try simp only [Sp.step, Sp.out, hd, Bool.false_eq_true, if_false, if_true, upd_apply]) <;> grind
          case awaited => have := h.awaited; (try simp only [Sp.step, Sp.out, hd, Bool.false_eq_true, if_false, if_true, upd_apply]) <;> grind
          case waitsN => have := h.waitsN; have := h.unrecv; have := h.parkA; (try simp only [Sp.step, Sp.out, hd, Bool.false_eq_true, if_false, if_true, upd_apply]) <;> grind
          case pending => have := h.pending; (try simp only [Sp.step, Sp.out, hd, Bool.false_eq_true, if_false, if_true, upd_apply]) <;> grind
          case log => (try simp only [Sp.step, Sp.out, hd, Bool.false_eq_true, if_false, if_true, upd_apply]) <;> (exact logCons (w := { push := w.push, toPush := false, ex := none, got := some (.val u) }) h.log hl rfl (by simp) (fun b hb => by simp [hb]))
          case rv => have := h.rv; have := h.gone; (try simp only [Sp.step, Sp.out, hd, Bool.false_eq_true, if_false, if_true, upd_apply]) <;> grind
          case once => (try simp only [Sp.step, Sp.out, hd, Bool.false_eq_true, if_false, if_true, upd_apply]) <;> (exact onceCons h.once hl)
          case killed => have := h.killed; (try simp only [Sp.step, Sp.out, hd, Bool.false_eq_true, if_false, if_true, upd_apply]) <;> grind
          case sub => have h1 := h.sub; (try simp only [Sp.step, Sp.out, hd, Bool.false_eq_true, if_false, if_true, upd_apply]) <;> grind
          case eqs => have h1 := h.eqs; have h2 := h.ended; (try simp only [Sp.step, Sp.out, hd, Bool.false_eq_true, if_false, if_true, upd_apply]) <;> grind
          case eqPre => have h1 := h.eqPre; have h2 := h.eqs; have h3 := h.ended; have h4 := h.gone; (try simp only [Sp.step, Sp.out, hd, Bool.false_eq_true, if_false, if_true, upd_apply]) <;> grind
          case points => have := h.points; (try simp only [Sp.step, Sp.out, hd, Bool.false_eq_true, if_false, if_true, upd_apply]) <;> grind


theorem Inv.throw (h : Inv q p s) {e : Nat} (hc : s.can (.throw e) = true) (ht : Tidy p s (.throw e)) :
    Inv q (p.step (.throw e)) (s.step (.throw e)) := by
  unfold St.step; rw [if_neg (by simp [h.ub, hc])]
  simp only [St.can, beq_iff_eq] at hc
  cases hrv : s.recv with
  | false =>
    have hd : p.dropped = true := by rw [h.dropped, hrv]; rfl
    have hub := h.ub
    simp only [hrv, if_true, Bool.true_eq_false, Bool.false_eq_true, if_false, ne_eq, not_true_eq_false, false_and, and_false, reduceCtorEq, true_and, and_true, not_false_eq_true, and_self, true_or, Option.isSome_none, Option.isSome_some, Bool.or_true, Bool.or_false, Bool.true_or, Bool.false_or, Bool.or_self]
    constructor
    case ub => have := h.ub; (try simp only [Sp.step, Sp.out, hd, Bool.false_eq_true, if_false, if_true, upd_apply]) <;> grind
    case dropped => have := h.dropped; (try simp only [Sp.step, Sp.out, hd, Bool.false_eq_true, if_false, if_true, upd_apply]) <;> grind
    case ended => have := h.ended; (try simp only [Sp.step, Sp.out, hd, Bool.false_eq_true, if_false, if_true, upd_apply]) <;> grind
    case gone => have := h.gone; (try simp only [Sp.step, Sp.out, hd, Bool.false_eq_true, if_false, if_true, upd_apply]) <;> grind
    case stuck => have := h.stuck; (try simp only [Sp.step, Sp.out, hd, Bool.false_eq_true, if_false, if_true, upd_apply]) <;> grind
    case unrecv => have := h.unrecv; (try simp only [Sp.step, Sp.out, hd, Bool.false_eq_true, if_false, if_true, upd_apply]) <;> grind
    case outs => (try simp only [Sp.step, Sp.out, hd, Bool.false_eq_true, if_false, if_true, upd_apply]) <;> (exact fun _ => by have h1 := h.outs; simp_all [Sp.step, Sp.out, pend, optVal, optErr, ofBody, List.filter_cons])
    case pre => have h1 := h.outs; have h2 := h.pre; have := h.exc; (try simp only [Sp.step, Sp.out, hd, Bool.false_eq_true, if_false, if_true, upd_apply]) <;> grind
    case excBody => have := h.excBody; (try simp only [Sp.step, Sp.out, hd, Bool.false_eq_true, if_false, if_true, upd_apply]) <;> grind
    case buf => have := h.buf; (try simp only [Sp.step, Sp.out, hd, Bool.false_eq_true, if_false, if_true, upd_apply]) <;> grind
    case exc => have := h.exc; (try simp only [Sp.step, Sp.out, hd, Bool.false_eq_true, if_false, if_true, upd_apply]) <;> grind
    case doneA => have := h.doneA; (try simp only [Sp.step, Sp.out, hd, Bool.false_eq_true, if_false, if_true, upd_apply]) <;> grind
    case parkA => have := h.parkA; have := h.gone; (try simp only [Sp.step, Sp.out, hd, Bool.false_eq_true, if_false, if_true, upd_apply]) <;> grind
    case eagerR => have := h.eagerR; (try simp only [Sp.step, Sp.out, hd, Bool.false_eq_true, if_false, if_true, upd_apply]) <;> grind
    case eagerP => have := h.eagerP; have := h.eagerR; (try simp only [Sp.step, Sp.out, hd, Bool.false_eq_true, if_false, if_true, upd_apply]) <;> grind
    case eagerQ => have := h.eagerQ; (try simp only [Sp.step, Sp.out, hd, Bool.false_eq_true, if_false, if_true, upd_apply]) <;> grind
    case lazyR => have := h.lazyR; (try simp only [Sp.step, Sp.out, hd, Bool.false_eq_true, if_false, if_true, upd_apply]) <;> grind
    case eagerD => have := h.eagerD; have := h.eagerR; (try simp only [Sp.step, Sp.out, hd, Bool.false_eq_true, if_false, if_true, upd_apply]) <;> grind
    case awaited => have := h.awaited; (try simp only [Sp.step, Sp.out, hd, Bool.false_eq_true, if_false, if_true, upd_apply]) <;> grind
    case waitsN => have := h.waitsN; have := h.unrecv; have := h.parkA; (try simp only [Sp.step, Sp.out, hd, Bool.false_eq_true, if_false, if_true, upd_apply]) <;> grind
    case pending => have := h.pending; (try simp only [Sp.step, Sp.out, hd, Bool.false_eq_true, if_false, if_true, upd_apply]) <;> grind
    case log => have := h.log; (try simp only [Sp.step, Sp.out, hd, Bool.false_eq_true, if_false, if_true, upd_apply]) <;> grind
    case rv => have := h.rv; have := h.gone; (try simp only [Sp.step, Sp.out, hd, Bool.false_eq_true, if_false, if_true, upd_apply]) <;> grind
    case once => have := h.once; (try simp only [Sp.step, Sp.out, hd, Bool.false_eq_true, if_false, if_true, upd_apply]) <;> grind
    case killed => have := h.killed; (try simp only [Sp.step, Sp.out, hd, Bool.false_eq_true, if_false, if_true, upd_apply]) <;> grind
    case sub => have h1 := h.sub; (try simp only [Sp.step, Sp.out, hd, Bool.false_eq_true, if_false, if_true, upd_apply]) <;> grind
    case eqs => have h1 := h.eqs; have h2 := h.ended; (try simp only [Sp.step, Sp.out, hd, Bool.false_eq_true, if_false, if_true, upd_apply]) <;> grind
    case eqPre => have h1 := h.eqPre; have h2 := h.eqs; have h3 := h.ended; have h4 := h.gone; (try simp only [Sp.step, Sp.out, hd, Bool.false_eq_true, if_false, if_true, upd_apply]) <;> grind
    case points => have := h.points; (try simp only [Sp.step, Sp.out, hd, Bool.false_eq_true, if_false, if_true, upd_apply]) <;> grind
  | true =>
    have hd : p.dropped = false := by rw [h.dropped, hrv]; rfl
    have hub := h.ub
    have hdn : s.done = false := by
      cases hx : s.done with
      | false => rfl
      | true => have := (h.gone hrv).1 hx; rw [hc] at this; simp at this
    have hex : s.exc = none := by
      cases hx : s.exc with
      | none => rfl
      | some e => have := (h.exc e hx).2; rw [hdn] at this; simp at this
    have hres := ht hrv
    have hbuf : s.buffer = none := by
      cases hx : s.buffer with
      | none => rfl
      | some e => exact absurd hres (h.buf e hx).1
    cases haw : s.awaited with
    | none =>
      simp only [St.put, St.suspend, St.bodyResume, St.wake, St.resumeAw, St.takeResult, St.give, St.finish, hrv, hub, haw, if_true, Bool.true_eq_false, Bool.false_eq_true, if_false, ne_eq, not_true_eq_false, false_and, and_false, reduceCtorEq, true_and, and_true, not_false_eq_true, and_self, true_or, Option.isSome_none, Option.isSome_some, Bool.or_true, Bool.or_false, Bool.true_or, Bool.false_or, Bool.or_self]
      constructor
      case ub => have := h.ub; (try simp only [Sp.step, Sp.out, hd, Bool.false_eq_true, if_false, if_true, upd_apply]) <;> grind
      case dropped => have := h.dropped; (try simp only [Sp.step, Sp.out, hd, Bool.false_eq_true, if_false, if_true, upd_apply]) <;> grind
      case ended => have := h.ended; (try simp only [Sp.step, Sp.out, hd, Bool.false_eq_true, if_false, if_true, upd_apply]) <;> grind
      case gone => have := h.gone; (try simp only [Sp.step, Sp.out, hd, Bool.false_eq_true, if_false, if_true, upd_apply]) <;> grind
      case stuck => have := h.stuck; (try simp only [Sp.step, Sp.out, hd, Bool.false_eq_true, if_false, if_true, upd_apply]) <;> grind
      case unrecv => have := h.unrecv; (try simp only [Sp.step, Sp.out, hd, Bool.false_eq_true, if_false, if_true, upd_apply]) <;> grind
      case outs => (try simp only [Sp.step, Sp.out, hd, Bool.false_eq_true, if_false, if_true, upd_apply]) <;> (exact fun _ => by have h1 := h.outs; simp_all [Sp.step, Sp.out, pend, optVal, optErr, ofBody, List.filter_cons])
      case pre => have h1 := h.outs; have h2 := h.pre; have := h.exc; (try simp only [Sp.step, Sp.out, hd, Bool.false_eq_true, if_false, if_true, upd_apply]) <;> grind
      case excBody => (try simp only [Sp.step, Sp.out, hd, Bool.false_eq_true, if_false, if_true, upd_apply]) <;> (exact by simp [ofBody])
      case buf => have := h.buf; (try simp only [Sp.step, Sp.out, hd, Bool.false_eq_true, if_false, if_true, upd_apply]) <;> grind
      case exc => have := h.exc; (try simp only [Sp.step, Sp.out, hd, Bool.false_eq_true, if_false, if_true, upd_apply]) <;> grind
      case doneA => have := h.doneA; (try simp only [Sp.step, Sp.out, hd, Bool.false_eq_true, if_false, if_true, upd_apply]) <;> grind
      case parkA => have := h.parkA; have := h.gone; (try simp only [Sp.step, Sp.out, hd, Bool.false_eq_true, if_false, if_true, upd_apply]) <;> grind
      case eagerR => have := h.eagerR; (try simp only [Sp.step, Sp.out, hd, Bool.false_eq_true, if_false, if_true, upd_apply]) <;> grind
      case eagerP => have := h.eagerP; have := h.eagerR; (try simp only [Sp.step, Sp.out, hd, Bool.false_eq_true, if_false, if_true, upd_apply]) <;> grind
      case eagerQ => have := h.eagerQ; (try simp only [Sp.step, Sp.out, hd, Bool.false_eq_true, if_false, if_true, upd_apply]) <;> grind
      case lazyR => have := h.lazyR; (try simp only [Sp.step, Sp.out, hd, Bool.false_eq_true, if_false, if_true, upd_apply]) <;> grind
      case eagerD => have := h.eagerD; have := h.eagerR; (try simp only [Sp.step, Sp.out, hd, Bool.false_eq_true, if_false, if_true, upd_apply]) <;> grind
      case awaited => have := h.awaited; (try simp only [Sp.step, Sp.out, hd, Bool.false_eq_true, if_false, if_true, upd_apply]) <;> grind
      case waitsN => have := h.waitsN; have := h.unrecv; have := h.parkA; (try simp only [Sp.step, Sp.out, hd, Bool.false_eq_true, if_false, if_true, upd_apply]) <;> grind
      case pending => have := h.pending; (try simp only [Sp.step, Sp.out, hd, Bool.false_eq_true, if_false, if_true, upd_apply]) <;> grind
      case log => have := h.log; (try simp only [Sp.step, Sp.out, hd, Bool.false_eq_true, if_false, if_true, upd_apply]) <;> grind
      case rv => have := h.rv; have := h.gone; (try simp only [Sp.step, Sp.out, hd, Bool.false_eq_true, if_false, if_true, upd_apply]) <;> grind
      case once => have := h.once; (try simp only [Sp.step, Sp.out, hd, Bool.false_eq_true, if_false, if_true, upd_apply]) <;> grind
      case killed => have := h.killed; (try simp only [Sp.step, Sp.out, hd, Bool.false_eq_true, if_false, if_true, upd_apply]) <;> grind
      case sub => have h1 := h.sub; (try simp only [Sp.step, Sp.out, hd, Bool.false_eq_true, if_false, if_true, upd_apply]) <;> grind
      case eqs => have h1 := h.eqs; have h2 := h.ended; (try simp only [Sp.step, Sp.out, hd, Bool.false_eq_true, if_false, if_true, upd_apply]) <;> grind
      case eqPre => have h1 := h.eqPre; have h2 := h.eqs; have h3 := h.ended; have h4 := h.gone; (try simp only [Sp.step, Sp.out, hd, Bool.false_eq_true, if_false, if_true, upd_apply]) <;> grind
      case points => have := h.points; (try simp only [Sp.step, Sp.out, hd, Bool.false_eq_true, if_false, if_true, upd_apply]) <;> grind
    | some a =>
      obtain ⟨hk, w, hw, hwx, hwg, hwp, hwe⟩ := h.awaited a haw
      have hl : ∀ g, (a, g) ∉ s.log := by
        intro g hg; obtain ⟨w', h1, h2⟩ := (h.log a g).1 hg; grind
      simp only [St.put, St.suspend, St.bodyResume, St.wake, St.resumeAw, St.takeResult, St.give, St.finish, hrv, hub, haw, hw, hwx, if_true, Bool.true_eq_false, Bool.false_eq_true, if_false, ne_eq, not_true_eq_false, false_and, and_false, reduceCtorEq, true_and, and_true, not_false_eq_true, and_self, true_or, Option.isSome_none, Option.isSome_some, Bool.or_true, Bool.or_false, Bool.true_or, Bool.false_or, Bool.or_self]
      constructor
      case ub => have := h.ub; (try simp only [Sp.step, Sp.out, hd, Bool.false_eq_true, if_false, if_true, upd_apply]) <;> grind
      case dropped => have := h.dropped; (try simp only [Sp.step, Sp.out, hd, Bool.false_eq_true, if_false, if_true, upd_apply]) <;> grind
      case ended => have := h.ended; (try simp only [Sp.step, Sp.out, hd, Bool.false_eq_true, if_false, if_true, upd_apply]) <;> grind
      case gone => have := h.gone; (try simp only [Sp.step, Sp.out, hd, Bool.false_eq_true, if_false, if_true, upd_apply]) <;> grind
      case stuck => have := h.stuck; (try simp only [Sp.step, Sp.out, hd, Bool.false_eq_true, if_false, if_true, upd_apply]) <;> grind
      case unrecv => have := h.unrecv; (try simp only [Sp.step, Sp.out, hd, Bool.false_eq_true, if_false, if_true, upd_apply]) <;> grind
      case outs => (try simp only [Sp.step, Sp.out, hd, Bool.false_eq_true, if_false, if_true, upd_apply]) <;> (exact fun _ => by have h1 := h.outs; simp_all [Sp.step, Sp.out, pend, optVal, optErr, ofBody, List.filter_cons])
      case pre => have h1 := h.outs; have h2 := h.pre; have := h.exc; (try simp only [Sp.step, Sp.out, hd, Bool.false_eq_true, if_false, if_true, upd_apply]) <;> grind
      case excBody => have := h.excBody; (try simp only [Sp.step, Sp.out, hd, Bool.false_eq_true, if_false, if_true, upd_apply]) <;> grind
      case buf => have := h.buf; (try simp only [Sp.step, Sp.out, hd, Bool.false_eq_true, if_false, if_true, upd_apply]) <;> grind
      case exc => have := h.exc; (try simp only [Sp.step, Sp.out, hd, Bool.false_eq_true, if_false, if_true, upd_apply]) <;> grind
      case doneA => have := h.doneA; (try simp only [Sp.step, Sp.out, hd, Bool.false_eq_true, if_false, if_true, upd_apply]) <;> grind
      case parkA => have := h.parkA; have := h.gone; (try simp only [Sp.step, Sp.out, hd, Bool.false_eq_true, if_false, if_true, upd_apply]) <;> grind
      case eagerR => have := h.eagerR; (try simp only [Sp.step, Sp.out, hd, Bool.false_eq_true, if_false, if_true, upd_apply]) <;> grind
      case eagerP => have := h.eagerP; have := h.eagerR; (try simp only [Sp.step, Sp.out, hd, Bool.false_eq_true, if_false, if_true, upd_apply]) <;> grind
      case eagerQ => have := h.eagerQ; (try simp only [Sp.step, Sp.out, hd, Bool.false_eq_true, if_false, if_true, upd_apply]) <;> grind
      case lazyR => have := h.lazyR; (try simp only [Sp.step, Sp.out, hd, Bool.false_eq_true, if_false, if_true, upd_apply]) <;> grind
      case eagerD => have := h.eagerD; have := h.eagerR; (try simp only [Sp.step, Sp.out, hd, Bool.false_eq_true, if_false, if_true, upd_apply]) <;> grind
      case awaited => have := h.awaited; (try simp only [Sp.step, Sp.out, hd, Bool.false_eq_true, if_false, if_true, upd_apply]) <;> grind
      case waitsN => have := h.waitsN; have := h.unrecv; have := h.parkA; (try simp only [Sp.step, Sp.out, hd, Bool.false_eq_true, if_false, if_true, upd_apply]) <;> grind
      case pending => have := h.pending; (try simp only [Sp.step, Sp.out, hd, Bool.false_eq_true, if_false, if_true, upd_apply]) <;> grind
      case log => (try simp only [Sp.step, Sp.out, hd, Bool.false_eq_true, if_false, if_true, upd_apply]) <;> (exact logCons (w := { push := w.push, toPush := w.toPush, ex := none, got := some (.err (.user e)) }) h.log hl rfl (by simp) (fun b hb => by simp [hb]))
      case rv => have := h.rv; have := h.gone; (try simp only [Sp.step, Sp.out, hd, Bool.false_eq_true, if_false, if_true, upd_apply]) <;> grind
      case once => (try simp only [Sp.step, Sp.out, hd, Bool.false_eq_true, if_false, if_true, upd_apply]) <;> (exact onceCons h.once hl)
      case killed => have := h.killed; (try simp only [Sp.step, Sp.out, hd, Bool.false_eq_true, if_false, if_true, upd_apply]) <;> grind
      case sub => have h1 := h.sub; (try simp only [Sp.step, Sp.out, hd, Bool.false_eq_true, if_false, if_true, upd_apply]) <;> grind
      case eqs => have h1 := h.eqs; have h2 := h.ended; (try simp only [Sp.step, Sp.out, hd, Bool.false_eq_true, if_false, if_true, upd_apply]) <;> grind
      case eqPre => have h1 := h.eqPre; have h2 := h.eqs; have h3 := h.ended; have h4 := h.gone; (try simp only [Sp.step, Sp.out, hd, Bool.false_eq_true, if_false, if_true, upd_apply]) <;> grind
      case points => have := h.points; (try simp only [Sp.step, Sp.out, hd, Bool.false_eq_true, if_false, if_true, upd_apply]) <;> grind


theorem Inv.kill (h : Inv q p s) (hc : s.can (.kill) = true) (ht : Tidy p s (.kill)) :
    Inv q (p.step (.kill)) (s.step (.kill)) := by
  unfold St.step; rw [if_neg (by simp [h.ub, hc])]
  simp only [St.can, Bool.or_eq_true, beq_iff_eq] at hc
  cases hrv : s.recv with
  | false =>
    have hd : p.dropped = true := by rw [h.dropped, hrv]; rfl
    have hub := h.ub
    simp only [hrv, St.kill, if_true, Bool.true_eq_false, Bool.false_eq_true, if_false, ne_eq, not_true_eq_false, false_and, and_false, reduceCtorEq, true_and, and_true, not_false_eq_true, and_self, true_or, Option.isSome_none, Option.isSome_some, Bool.or_true, Bool.or_false, Bool.true_or, Bool.false_or, Bool.or_self]
    constructor
    case ub => have := h.ub; (try simp only [Sp.step, Sp.out, hd, Bool.false_eq_true, if_false, if_true, upd_apply]) <;> grind
    case dropped => have := h.dropped; (try simp only [Sp.step, Sp.out, hd, Bool.false_eq_true, if_false, if_true, upd_apply]) <;> grind
    case ended => have := h.ended; (try simp only [Sp.step, Sp.out, hd, Bool.false_eq_true, if_false, if_true, upd_apply]) <;> grind
    case gone => have := h.gone; (try simp only [Sp.step, Sp.out, hd, Bool.false_eq_true, if_false, if_true, upd_apply]) <;> grind
    case stuck => have := h.stuck; (try simp only [Sp.step, Sp.out, hd, Bool.false_eq_true, if_false, if_true, upd_apply]) <;> grind
    case unrecv => have := h.unrecv; (try simp only [Sp.step, Sp.out, hd, Bool.false_eq_true, if_false, if_true, upd_apply]) <;> grind
    case outs => (try simp only [Sp.step, Sp.out, hd, Bool.false_eq_true, if_false, if_true, upd_apply]) <;> (exact fun _ => by have h1 := h.outs; simp_all [Sp.step, Sp.out, pend, optVal, optErr, ofBody, List.filter_cons])
    case pre => have h1 := h.outs; have h2 := h.pre; have := h.exc; (try simp only [Sp.step, Sp.out, hd, Bool.false_eq_true, if_false, if_true, upd_apply]) <;> grind
    case excBody => have := h.excBody; (try simp only [Sp.step, Sp.out, hd, Bool.false_eq_true, if_false, if_true, upd_apply]) <;> grind
    case buf => have := h.buf; (try simp only [Sp.step, Sp.out, hd, Bool.false_eq_true, if_false, if_true, upd_apply]) <;> grind
    case exc => have := h.exc; (try simp only [Sp.step, Sp.out, hd, Bool.false_eq_true, if_false, if_true, upd_apply]) <;> grind
    case doneA => have := h.doneA; (try simp only [Sp.step, Sp.out, hd, Bool.false_eq_true, if_false, if_true, upd_apply]) <;> grind
    case parkA => have := h.parkA; have := h.gone; (try simp only [Sp.step, Sp.out, hd, Bool.false_eq_true, if_false, if_true, upd_apply]) <;> grind
    case eagerR => have := h.eagerR; (try simp only [Sp.step, Sp.out, hd, Bool.false_eq_true, if_false, if_true, upd_apply]) <;> grind
    case eagerP => have := h.eagerP; have := h.eagerR; (try simp only [Sp.step, Sp.out, hd, Bool.false_eq_true, if_false, if_true, upd_apply]) <;> grind
    case eagerQ => have := h.eagerQ; (try simp only [Sp.step, Sp.out, hd, Bool.false_eq_true, if_false, if_true, upd_apply]) <;> grind
    case lazyR => have := h.lazyR; (try simp only [Sp.step, Sp.out, hd, Bool.false_eq_true, if_false, if_true, upd_apply]) <;> grind
    case eagerD => have := h.eagerD; have := h.eagerR; (try simp only [Sp.step, Sp.out, hd, Bool.false_eq_true, if_false, if_true, upd_apply]) <;> grind
    case awaited => have := h.awaited; (try simp only [Sp.step, Sp.out, hd, Bool.false_eq_true, if_false, if_true, upd_apply]) <;> grind
    case waitsN => have := h.waitsN; have := h.unrecv; have := h.parkA; (try simp only [Sp.step, Sp.out, hd, Bool.false_eq_true, if_false, if_true, upd_apply]) <;> grind
    case pending => have := h.pending; (try simp only [Sp.step, Sp.out, hd, Bool.false_eq_true, if_false, if_true, upd_apply]) <;> grind
    case log => have := h.log; (try simp only [Sp.step, Sp.out, hd, Bool.false_eq_true, if_false, if_true, upd_apply]) <;> grind
    case rv => have := h.rv; have := h.gone; (try simp only [Sp.step, Sp.out, hd, Bool.false_eq_true, if_false, if_true, upd_apply]) <;> grind
    case once => have := h.once; (try simp only [Sp.step, Sp.out, hd, Bool.false_eq_true, if_false, if_true, upd_apply]) <;> grind
    case killed => have := h.killed; (try simp only [Sp.step, Sp.out, hd, Bool.false_eq_true, if_false, if_true, upd_apply]) <;> grind
    case sub => have h1 := h.sub; (try simp only [Sp.step, Sp.out, hd, Bool.false_eq_true, if_false, if_true, upd_apply]) <;> grind
    case eqs => have h1 := h.eqs; have h2 := h.ended; (try simp only [Sp.step, Sp.out, hd, Bool.false_eq_true, if_false, if_true, upd_apply]) <;> grind
    case eqPre => have h1 := h.eqPre; have h2 := h.eqs; have h3 := h.ended; have h4 := h.gone; (try simp only [Sp.step, Sp.out, hd, Bool.false_eq_true, if_false, if_true, upd_apply]) <;> grind
    case points => have := h.points; (try simp only [Sp.step, Sp.out, hd, Bool.false_eq_true, if_false, if_true, upd_apply]) <;> grind
  | true =>
    have hd : p.dropped = false := by rw [h.dropped, hrv]; rfl
    have hub := h.ub
    have hdn : s.done = false := by
      cases hx : s.done with
      | false => rfl
      | true => have := (h.gone hrv).1 hx; rcases hc with hc | hc <;> rw [hc] at this <;> simp at this
    have hex : s.exc = none := by
      cases hx : s.exc with
      | none => rfl
      | some e => have := (h.exc e hx).2; rw [hdn] at this; simp at this
    have hres := ht hrv
    have hbuf : s.buffer = none := by
      cases hx : s.buffer with
      | none => rfl
      | some e => exact absurd hres (h.buf e hx).1
    cases haw : s.awaited with
    | none =>
      simp only [St.kill, St.dead, hdn, hex, hrv, hub, haw, if_true, Bool.true_eq_false, Bool.false_eq_true, if_false, ne_eq, not_true_eq_false, false_and, and_false, reduceCtorEq, true_and, and_true, not_false_eq_true, and_self, true_or, Option.isSome_none, Option.isSome_some, Bool.or_true, Bool.or_false, Bool.true_or, Bool.false_or, Bool.or_self]
      constructor
      case ub => have := h.ub; (try simp only [Sp.step, Sp.out, hd, Bool.false_eq_true, if_false, if_true, upd_apply]) <;> grind
      case dropped => have := h.dropped; (try simp only [Sp.step, Sp.out, hd, Bool.false_eq_true, if_false, if_true, upd_apply]) <;> grind
      case ended => have := h.ended; (try simp only [Sp.step, Sp.out, hd, Bool.false_eq_true, if_false, if_true, upd_apply]) <;> grind
      case gone => have := h.gone; (try simp only [Sp.step, Sp.out, hd, Bool.false_eq_true, if_false, if_true, upd_apply]) <;> grind
      case stuck => have := h.stuck; (try simp only [Sp.step, Sp.out, hd, Bool.false_eq_true, if_false, if_true, upd_apply]) <;> grind
      case unrecv => have := h.unrecv; (try simp only [Sp.step, Sp.out, hd, Bool.false_eq_true, if_false, if_true, upd_apply]) <;> grind
      case outs => (try simp only [Sp.step, Sp.out, hd, Bool.false_eq_true, if_false, if_true, upd_apply]) <;> (exact fun _ => by have h1 := h.outs; simp_all [Sp.step, Sp.out, pend, optVal, optErr, ofBody, List.filter_cons])
      case pre => have h1 := h.outs; have h2 := h.pre; have := h.exc; (try simp only [Sp.step, Sp.out, hd, Bool.false_eq_true, if_false, if_true, upd_apply]) <;> grind
      case excBody => (try simp only [Sp.step, Sp.out, hd, Bool.false_eq_true, if_false, if_true, upd_apply]) <;> (exact by simp [ofBody])
      case buf => have := h.buf; (try simp only [Sp.step, Sp.out, hd, Bool.false_eq_true, if_false, if_true, upd_apply]) <;> grind
      case exc => have := h.exc; (try simp only [Sp.step, Sp.out, hd, Bool.false_eq_true, if_false, if_true, upd_apply]) <;> grind
      case doneA => have := h.doneA; (try simp only [Sp.step, Sp.out, hd, Bool.false_eq_true, if_false, if_true, upd_apply]) <;> grind
      case parkA => have := h.parkA; have := h.gone; (try simp only [Sp.step, Sp.out, hd, Bool.false_eq_true, if_false, if_true, upd_apply]) <;> grind
      case eagerR => have := h.eagerR; (try simp only [Sp.step, Sp.out, hd, Bool.false_eq_true, if_false, if_true, upd_apply]) <;> grind
      case eagerP => have := h.eagerP; have := h.eagerR; (try simp only [Sp.step, Sp.out, hd, Bool.false_eq_true, if_false, if_true, upd_apply]) <;> grind
      case eagerQ => have := h.eagerQ; (try simp only [Sp.step, Sp.out, hd, Bool.false_eq_true, if_false, if_true, upd_apply]) <;> grind
      case lazyR => have := h.lazyR; (try simp only [Sp.step, Sp.out, hd, Bool.false_eq_true, if_false, if_true, upd_apply]) <;> grind
      case eagerD => have := h.eagerD; have := h.eagerR; (try simp only [Sp.step, Sp.out, hd, Bool.false_eq_true, if_false, if_true, upd_apply]) <;> grind
      case awaited => have := h.awaited; (try simp only [Sp.step, Sp.out, hd, Bool.false_eq_true, if_false, if_true, upd_apply]) <;> grind
      case waitsN => have := h.waitsN; have := h.unrecv; have := h.parkA; (try simp only [Sp.step, Sp.out, hd, Bool.false_eq_true, if_false, if_true, upd_apply]) <;> grind
      case pending => have := h.pending; (try simp only [Sp.step, Sp.out, hd, Bool.false_eq_true, if_false, if_true, upd_apply]) <;> grind
      case log => have := h.log; (try simp only [Sp.step, Sp.out, hd, Bool.false_eq_true, if_false, if_true, upd_apply]) <;> grind
      case rv => have := h.rv; have := h.gone; (try simp only [Sp.step, Sp.out, hd, Bool.false_eq_true, if_false, if_true, upd_apply]) <;> grind
      case once => have := h.once; (try simp only [Sp.step, Sp.out, hd, Bool.false_eq_true, if_false, if_true, upd_apply]) <;> grind
      case killed => have := h.killed; (try simp only [Sp.step, Sp.out, hd, Bool.false_eq_true, if_false, if_true, upd_apply]) <;> grind
      case sub => have h1 := h.sub; (try simp only [Sp.step, Sp.out, hd, Bool.false_eq_true, if_false, if_true, upd_apply]) <;> grind
      case eqs => have h1 := h.eqs; have h2 := h.ended; (try simp only [Sp.step, Sp.out, hd, Bool.false_eq_true, if_false, if_true, upd_apply]) <;> grind
      case eqPre => have h1 := h.eqPre; have h2 := h.eqs; have h3 := h.ended; have h4 := h.gone; (try simp only [Sp.step, Sp.out, hd, Bool.false_eq_true, if_false, if_true, upd_apply]) <;> grind
      case points => have := h.points; (try simp only [Sp.step, Sp.out, hd, Bool.false_eq_true, if_false, if_true, upd_apply]) <;> grind
    | some a =>
      obtain ⟨hk, w, hw, hwx, hwg, hwp, hwe⟩ := h.awaited a haw
      have hl : ∀ g, (a, g) ∉ s.log := by
        intro g hg; obtain ⟨w', h1, h2⟩ := (h.log a g).1 hg; grind
      simp only [St.kill, St.dead, hdn, hex, hrv, hub, haw, hw, hwx, if_true, Bool.true_eq_false, Bool.false_eq_true, if_false, ne_eq, not_true_eq_false, false_and, and_false, reduceCtorEq, true_and, and_true, not_false_eq_true, and_self, true_or, Option.isSome_none, Option.isSome_some, Bool.or_true, Bool.or_false, Bool.true_or, Bool.false_or, Bool.or_self]
      constructor
      case ub => have := h.ub; (try simp only [Sp.step, Sp.out, hd, Bool.false_eq_true, if_false, if_true, upd_apply]) <;> grind
      case dropped => have := h.dropped; (try simp only [Sp.step, Sp.out, hd, Bool.false_eq_true, if_false, if_true, upd_apply]) <;> grind
      case ended => have := h.ended; (try simp only [Sp.step, Sp.out, hd, Bool.false_eq_true, if_false, if_true, upd_apply]) <;> grind
      case gone => have := h.gone; (try simp only [Sp.step, Sp.out, hd, Bool.false_eq_true, if_false, if_true, upd_apply]) <;> grind
      case stuck => have := h.stuck; (try simp only [Sp.step, Sp.out, hd, Bool.false_eq_true, if_false, if_true, upd_apply]) <;> grind
      case unrecv => have := h.unrecv; (try simp only [Sp.step, Sp.out, hd, Bool.false_eq_true, if_false, if_true, upd_apply]) <;> grind
      case outs => (try simp only [Sp.step, Sp.out, hd, Bool.false_eq_true, if_false, if_true, upd_apply]) <;> (exact fun _ => by have h1 := h.outs; simp_all [Sp.step, Sp.out, pend, optVal, optErr, ofBody, List.filter_cons])
      case pre => have h1 := h.outs; have h2 := h.pre; have := h.exc; (try simp only [Sp.step, Sp.out, hd, Bool.false_eq_true, if_false, if_true, upd_apply]) <;> grind
      case excBody => (try simp only [Sp.step, Sp.out, hd, Bool.false_eq_true, if_false, if_true, upd_apply]) <;> (exact by simp [ofBody])
      case buf => have := h.buf; (try simp only [Sp.step, Sp.out, hd, Bool.false_eq_true, if_false, if_true, upd_apply]) <;> grind
      case exc => have := h.exc; (try simp only [Sp.step, Sp.out, hd, Bool.false_eq_true, if_false, if_true, upd_apply]) <;> grind
      case doneA => have := h.doneA; (try simp only [Sp.step, Sp.out, hd, Bool.false_eq_true, if_false, if_true, upd_apply]) <;> grind
      case parkA => have := h.parkA; have := h.gone; (try simp only [Sp.step, Sp.out, hd, Bool.false_eq_true, if_false, if_true, upd_apply]) <;> grind
      case eagerR => have := h.eagerR; (try simp only [Sp.step, Sp.out, hd, Bool.false_eq_true, if_false, if_true, upd_apply]) <;> grind
      case eagerP => have := h.eagerP; have := h.eagerR; (try simp only [Sp.step, Sp.out, hd, Bool.false_eq_true, if_false, if_true, upd_apply]) <;> grind
      case eagerQ => have := h.eagerQ; (try simp only [Sp.step, Sp.out, hd, Bool.false_eq_true, if_false, if_true, upd_apply]) <;> grind
      case lazyR => have := h.lazyR; (try simp only [Sp.step, Sp.out, hd, Bool.false_eq_true, if_false, if_true, upd_apply]) <;> grind
      case eagerD => have := h.eagerD; have := h.eagerR; (try simp only [Sp.step, Sp.out, hd, Bool.false_eq_true, if_false, if_true, upd_apply]) <;> grind
      case awaited => have := h.awaited; (try simp only [Sp.step, Sp.out, hd, Bool.false_eq_true, if_false, if_true, upd_apply]) <;> grind
      case waitsN => have := h.waitsN; have := h.unrecv; have := h.parkA; (try simp only [Sp.step, Sp.out, hd, Bool.false_eq_true, if_false, if_true, upd_apply]) <;> grind
      case pending => have := h.pending; (try simp only [Sp.step, Sp.out, hd, Bool.false_eq_true, if_false, if_true, upd_apply]) <;> grind
      case log => have := h.log; (try simp only [Sp.step, Sp.out, hd, Bool.false_eq_true, if_false, if_true, upd_apply]) <;> grind
      case rv => have := h.rv; have := h.gone; (try simp only [Sp.step, Sp.out, hd, Bool.false_eq_true, if_false, if_true, upd_apply]) <;> grind
      case once => have := h.once; (try simp only [Sp.step, Sp.out, hd, Bool.false_eq_true, if_false, if_true, upd_apply]) <;> grind
      case killed => have := h.killed; (try simp only [Sp.step, Sp.out, hd, Bool.false_eq_true, if_false, if_true, upd_apply]) <;> grind
      case sub => have h1 := h.sub; (try simp only [Sp.step, Sp.out, hd, Bool.false_eq_true, if_false, if_true, upd_apply]) <;> grind
      case eqs => have h1 := h.eqs; have h2 := h.ended; (try simp only [Sp.step, Sp.out, hd, Bool.false_eq_true, if_false, if_true, upd_apply]) <;> grind
      case eqPre => have h1 := h.eqPre; have h2 := h.eqs; have h3 := h.ended; have h4 := h.gone; (try simp only [Sp.step, Sp.out, hd, Bool.false_eq_true, if_false, if_true, upd_apply]) <;> grind
      case points => have := h.points; (try simp only [Sp.step, Sp.out, hd, Bool.false_eq_true, if_false, if_true, upd_apply]) <;> grind


theorem Inv.run (h : Inv q p s) (hc : s.can (.run) = true) :
    Inv q (p.step (.run)) (s.step (.run)) := by
  unfold St.step; rw [if_neg (by simp [h.ub, hc])]
  simp only [St.can, beq_iff_eq] at hc
  cases hrv : s.recv with
  | false =>
    have hd : p.dropped = true := by rw [h.dropped, hrv]; rfl
    have hub := h.ub
    simp only [hrv, if_true, Bool.true_eq_false, Bool.false_eq_true, if_false, ne_eq, not_true_eq_false, false_and, and_false, reduceCtorEq, true_and, and_true, not_false_eq_true, and_self, true_or, Option.isSome_none, Option.isSome_some, Bool.or_true, Bool.or_false, Bool.true_or, Bool.false_or, Bool.or_self]
    constructor
    case ub => have := h.ub; (try simp only [Sp.step, Sp.out, hd, Bool.false_eq_true, if_false, if_true, upd_apply]) <;> grind
    case dropped => have := h.dropped; (try simp only [Sp.step, Sp.out, hd, Bool.false_eq_true, if_false, if_true, upd_apply]) <;> grind
    case ended => have := h.ended; (try simp only [Sp.step, Sp.out, hd, Bool.false_eq_true, if_false, if_true, upd_apply]) <;> grind
    case gone => have := h.gone; (try simp only [Sp.step, Sp.out, hd, Bool.false_eq_true, if_false, if_true, upd_apply]) <;> grind
    case stuck => have := h.stuck; (try simp only [Sp.step, Sp.out, hd, Bool.false_eq_true, if_false, if_true, upd_apply]) <;> grind
    case unrecv => have := h.unrecv; (try simp only [Sp.step, Sp.out, hd, Bool.false_eq_true, if_false, if_true, upd_apply]) <;> grind
    case outs => (try simp only [Sp.step, Sp.out, hd, Bool.false_eq_true, if_false, if_true, upd_apply]) <;> (exact fun _ => by have h1 := h.outs; simp_all [Sp.step, Sp.out, pend, optVal, optErr, ofBody, List.filter_cons])
    case pre => have h1 := h.outs; have h2 := h.pre; have := h.exc; (try simp only [Sp.step, Sp.out, hd, Bool.false_eq_true, if_false, if_true, upd_apply]) <;> grind
    case excBody => have := h.excBody; (try simp only [Sp.step, Sp.out, hd, Bool.false_eq_true, if_false, if_true, upd_apply]) <;> grind
    case buf => have := h.buf; (try simp only [Sp.step, Sp.out, hd, Bool.false_eq_true, if_false, if_true, upd_apply]) <;> grind
    case exc => have := h.exc; (try simp only [Sp.step, Sp.out, hd, Bool.false_eq_true, if_false, if_true, upd_apply]) <;> grind
    case doneA => have := h.doneA; (try simp only [Sp.step, Sp.out, hd, Bool.false_eq_true, if_false, if_true, upd_apply]) <;> grind
    case parkA => have := h.parkA; have := h.gone; (try simp only [Sp.step, Sp.out, hd, Bool.false_eq_true, if_false, if_true, upd_apply]) <;> grind
    case eagerR => have := h.eagerR; (try simp only [Sp.step, Sp.out, hd, Bool.false_eq_true, if_false, if_true, upd_apply]) <;> grind
    case eagerP => have := h.eagerP; have := h.eagerR; (try simp only [Sp.step, Sp.out, hd, Bool.false_eq_true, if_false, if_true, upd_apply]) <;> grind
    case eagerQ => have := h.eagerQ; (try simp only [Sp.step, Sp.out, hd, Bool.false_eq_true, if_false, if_true, upd_apply]) <;> grind
    case lazyR => have := h.lazyR; (try simp only [Sp.step, Sp.out, hd, Bool.false_eq_true, if_false, if_true, upd_apply]) <;> grind
    case eagerD => have := h.eagerD; have := h.eagerR; (try simp only [Sp.step, Sp.out, hd, Bool.false_eq_true, if_false, if_true, upd_apply]) <;> grind
    case awaited => have := h.awaited; (try simp only [Sp.step, Sp.out, hd, Bool.false_eq_true, if_false, if_true, upd_apply]) <;> grind
    case waitsN => have := h.waitsN; have := h.unrecv; have := h.parkA; (try simp only [Sp.step, Sp.out, hd, Bool.false_eq_true, if_false, if_true, upd_apply]) <;> grind
    case pending => have := h.pending; (try simp only [Sp.step, Sp.out, hd, Bool.false_eq_true, if_false, if_true, upd_apply]) <;> grind
    case log => have := h.log; (try simp only [Sp.step, Sp.out, hd, Bool.false_eq_true, if_false, if_true, upd_apply]) <;> grind
    case rv => have := h.rv; have := h.gone; (try simp only [Sp.step, Sp.out, hd, Bool.false_eq_true, if_false, if_true, upd_apply]) <;> grind
    case once => have := h.once; (try simp only [Sp.step, Sp.out, hd, Bool.false_eq_true, if_false, if_true, upd_apply]) <;> grind
    case killed => have := h.killed; (try simp only [Sp.step, Sp.out, hd, Bool.false_eq_true, if_false, if_true, upd_apply]) <;> grind
    case sub => have h1 := h.sub; (try simp only [Sp.step, Sp.out, hd, Bool.false_eq_true, if_false, if_true, upd_apply]) <;> grind
    case eqs => have h1 := h.eqs; have h2 := h.ended; (try simp only [Sp.step, Sp.out, hd, Bool.false_eq_true, if_false, if_true, upd_apply]) <;> grind
    case eqPre => have h1 := h.eqPre; have h2 := h.eqs; have h3 := h.ended; have h4 := h.gone; (try simp only [Sp.step, Sp.out, hd, Bool.false_eq_true, if_false, if_true, upd_apply]) <;> grind
    case points => have := h.points; (try simp only [Sp.step, Sp.out, hd, Bool.false_eq_true, if_false, if_true, upd_apply]) <;> grind
  | true =>
    have hd : p.dropped = false := by rw [h.dropped, hrv]; rfl
    have hub := h.ub
    obtain ⟨hlz, hp, hres⟩ := h.eagerQ hrv hc
    obtain ⟨u, hu⟩ := Option.ne_none_iff_exists'.1 hp
    simp only [St.bodyResume, hu, if_true]
    constructor
    case ub => have := h.ub; (try simp only [Sp.step, Sp.out, hd, Bool.false_eq_true, if_false, if_true, upd_apply]) <;> grind
    case dropped => have := h.dropped; (try simp only [Sp.step, Sp.out, hd, Bool.false_eq_true, if_false, if_true, upd_apply]) <;> grind
    case ended => have := h.ended; (try simp only [Sp.step, Sp.out, hd, Bool.false_eq_true, if_false, if_true, upd_apply]) <;> grind
    case gone => have := h.gone; (try simp only [Sp.step, Sp.out, hd, Bool.false_eq_true, if_false, if_true, upd_apply]) <;> grind
    case stuck => have := h.stuck; (try simp only [Sp.step, Sp.out, hd, Bool.false_eq_true, if_false, if_true, upd_apply]) <;> grind
    case unrecv => have := h.unrecv; (try simp only [Sp.step, Sp.out, hd, Bool.false_eq_true, if_false, if_true, upd_apply]) <;> grind
    case outs => (try simp only [Sp.step, Sp.out, hd, Bool.false_eq_true, if_false, if_true, upd_apply]) <;> (exact fun _ => by have h1 := h.outs; simp_all [Sp.step, Sp.out, pend, optVal, optErr, ofBody, List.filter_cons])
    case pre => have h1 := h.outs; have h2 := h.pre; have := h.exc; (try simp only [Sp.step, Sp.out, hd, Bool.false_eq_true, if_false, if_true, upd_apply]) <;> grind
    case excBody => have := h.excBody; (try simp only [Sp.step, Sp.out, hd, Bool.false_eq_true, if_false, if_true, upd_apply]) <;> grind
    case buf => have := h.buf; (try simp only [Sp.step, Sp.out, hd, Bool.false_eq_true, if_false, if_true, upd_apply]) <;> grind
    case exc => have := h.exc; (try simp only [Sp.step, Sp.out, hd, Bool.false_eq_true, if_false, if_true, upd_apply]) <;> grind
    case doneA => have := h.doneA; (try simp only [Sp.step, Sp.out, hd, Bool.false_eq_true, if_false, if_true, upd_apply]) <;> grind
    case parkA => have := h.parkA; have := h.gone; (try simp only [Sp.step, Sp.out, hd, Bool.false_eq_true, if_false, if_true, upd_apply]) <;> grind
    case eagerR => have := h.eagerR; (try simp only [Sp.step, Sp.out, hd, Bool.false_eq_true, if_false, if_true, upd_apply]) <;> grind
    case eagerP => have := h.eagerP; have := h.eagerR; (try simp only [Sp.step, Sp.out, hd, Bool.false_eq_true, if_false, if_true, upd_apply]) <;> grind
    case eagerQ => have := h.eagerQ; (try simp only [Sp.step, Sp.out, hd, Bool.false_eq_true, if_false, if_true, upd_apply]) <;> grind
    case lazyR => have := h.lazyR; (try simp only [Sp.step, Sp.out, hd, Bool.false_eq_true, if_false, if_true, upd_apply]) <;> grind
    case eagerD => have := h.eagerD; have := h.eagerR; (try simp only [Sp.step, Sp.out, hd, Bool.false_eq_true, if_false, if_true, upd_apply]) <;> grind
    case awaited => have := h.awaited; (try simp only [Sp.step, Sp.out, hd, Bool.false_eq_true, if_false, if_true, upd_apply]) <;> grind
    case waitsN => have := h.waitsN; (try simp only [Sp.step, Sp.out, hd, Bool.false_eq_true, if_false, if_true, upd_apply]) <;> grind
    case pending => have := h.pending; (try simp only [Sp.step, Sp.out, hd, Bool.false_eq_true, if_false, if_true, upd_apply]) <;> grind
    case log => have := h.log; (try simp only [Sp.step, Sp.out, hd, Bool.false_eq_true, if_false, if_true, upd_apply]) <;> grind
    case rv => have := h.rv; have := h.gone; (try simp only [Sp.step, Sp.out, hd, Bool.false_eq_true, if_false, if_true, upd_apply]) <;> grind
    case once => have := h.once; (try simp only [Sp.step, Sp.out, hd, Bool.false_eq_true, if_false, if_true, upd_apply]) <;> grind
    case killed => have := h.killed; (try simp only [Sp.step, Sp.out, hd, Bool.false_eq_true, if_false, if_true, upd_apply]) <;> grind
    case sub => have h1 := h.sub; (try simp only [Sp.step, Sp.out, hd, Bool.false_eq_true, if_false, if_true, upd_apply]) <;> grind
    case eqs => have h1 := h.eqs; have h2 := h.ended; (try simp only [Sp.step, Sp.out, hd, Bool.false_eq_true, if_false, if_true, upd_apply]) <;> grind
    case eqPre => have h1 := h.eqPre; have h2 := h.eqs; have h3 := h.ended; have h4 := h.gone; (try simp only [Sp.step, Sp.out, hd, Bool.false_eq_true, if_false, if_true, upd_apply]) <;> grind
    case points => have := h.points; (try simp only [Sp.step, Sp.out, hd, Bool.false_eq_true, if_false, if_true, upd_apply]) <;> grind

set_option maxHeartbeats 1000000 in
theorem Inv.await (h : Inv q p s) {a v : Nat} (hc : s.can (.await a v) = true) (ht : Tidy p s (.await a v))
    (hq : q = true → Plain s (.await a v)) :
    Inv q (p.step (.await a v)) (s.step (.await a v)) := by
  unfold St.step; rw [if_neg (by simp [h.ub, hc])]
  simp only [Plain] at hq
  simp only [St.can, Bool.and_eq_true, Option.isNone_iff_eq_none] at hc
  obtain ⟨hrv, ha⟩ := hc
  have hd : p.dropped = false := by rw [h.dropped, hrv]; rfl
  have hub := h.ub
  have hk : a ∉ s.killed := by
    intro hk; obtain ⟨w, hw, -⟩ := h.killed a hk; rw [ha] at hw; simp at hw
  have hl : ∀ g, (a, g) ∉ s.log := by
    intro g hg; obtain ⟨w', h1, h2⟩ := (h.log a g).1 hg; rw [ha] at h1; simp at h1
  have hna : s.awaited ≠ some a := by
    intro hx; obtain ⟨-, w, hw, -⟩ := h.awaited a hx; rw [ha] at hw; simp at hw
  cases hex : s.exc with
  | some e =>
    obtain ⟨hres, hdn⟩ := h.exc e hex
    have hob := h.excBody e hex
    have hbuf : s.buffer = none := by
      cases hx : s.buffer with
      | none => rfl
      | some e => exact absurd hres (h.buf e hx).1
    simp only [St.put, St.suspend, St.bodyResume, St.wake, St.resumeAw, St.takeResult, St.give, St.finish, St.await, St.ready, upd_apply, hex, if_true, Bool.true_eq_false, Bool.false_eq_true, if_false, ne_eq, not_true_eq_false, false_and, and_false, reduceCtorEq, true_and, and_true, not_false_eq_true, and_self, true_or, Option.isSome_none, Option.isSome_some, Bool.or_true, Bool.or_false, Bool.true_or, Bool.false_or, Bool.or_self]
    constructor
    case ub => have := h.ub; (try simp only [Sp.step, Sp.out, hd, Bool.false_eq_true, if_false, if_true, upd_apply]) <;> grind
    case dropped => have := h.dropped; (try simp only [Sp.step, Sp.out, hd, Bool.false_eq_true, if_false, if_true, upd_apply]) <;> grind
    case ended => have := h.ended; (try simp only [Sp.step, Sp.out, hd, Bool.false_eq_true, if_false, if_true, upd_apply]) <;> grind
    case gone => have := h.gone; (try simp only [Sp.step, Sp.out, hd, Bool.false_eq_true, if_false, if_true, upd_apply]) <;> grind
    case stuck => have := h.stuck; (try simp only [Sp.step, Sp.out, hd, Bool.false_eq_true, if_false, if_true, upd_apply]) <;> grind
    case unrecv => have := h.unrecv; (try simp only [Sp.step, Sp.out, hd, Bool.false_eq_true, if_false, if_true, upd_apply]) <;> grind
    case outs => (try simp only [Sp.step, Sp.out, hd, Bool.false_eq_true, if_false, if_true, upd_apply]) <;> (exact fun _ => by have h1 := h.outs; simp_all [Sp.step, Sp.out, pend, optVal, optErr, ofBody, List.filter_cons])
    case pre => have h1 := h.outs; have h2 := h.pre; have := h.exc; (try simp only [Sp.step, Sp.out, hd, Bool.false_eq_true, if_false, if_true, upd_apply]) <;> grind
    case excBody => have := h.excBody; (try simp only [Sp.step, Sp.out, hd, Bool.false_eq_true, if_false, if_true, upd_apply]) <;> grind
    case buf => have := h.buf; (try simp only [Sp.step, Sp.out, hd, Bool.false_eq_true, if_false, if_true, upd_apply]) <;> grind
    case exc => have := h.exc; (try simp only [Sp.step, Sp.out, hd, Bool.false_eq_true, if_false, if_true, upd_apply]) <;> grind
    case doneA => have := h.doneA; (try simp only [Sp.step, Sp.out, hd, Bool.false_eq_true, if_false, if_true, upd_apply]) <;> grind
    case parkA => have := h.parkA; have := h.gone; (try simp only [Sp.step, Sp.out, hd, Bool.false_eq_true, if_false, if_true, upd_apply]) <;> grind
    case eagerR => have := h.eagerR; (try simp only [Sp.step, Sp.out, hd, Bool.false_eq_true, if_false, if_true, upd_apply]) <;> grind
    case eagerP => have := h.eagerP; have := h.eagerR; (try simp only [Sp.step, Sp.out, hd, Bool.false_eq_true, if_false, if_true, upd_apply]) <;> grind
    case eagerQ => have := h.eagerQ; (try simp only [Sp.step, Sp.out, hd, Bool.false_eq_true, if_false, if_true, upd_apply]) <;> grind
    case lazyR => have := h.lazyR; (try simp only [Sp.step, Sp.out, hd, Bool.false_eq_true, if_false, if_true, upd_apply]) <;> grind
    case eagerD => have := h.eagerD; have := h.eagerR; (try simp only [Sp.step, Sp.out, hd, Bool.false_eq_true, if_false, if_true, upd_apply]) <;> grind
    case awaited => have := h.awaited; (try simp only [Sp.step, Sp.out, hd, Bool.false_eq_true, if_false, if_true, upd_apply]) <;> grind
    case waitsN => have := h.waitsN; have := h.unrecv; have := h.parkA; (try simp only [Sp.step, Sp.out, hd, Bool.false_eq_true, if_false, if_true, upd_apply]) <;> grind
    case pending => have := h.pending; (try simp only [Sp.step, Sp.out, hd, Bool.false_eq_true, if_false, if_true, upd_apply]) <;> grind
    case log => (try simp only [Sp.step, Sp.out, hd, Bool.false_eq_true, if_false, if_true, upd_apply]) <;> (exact logCons (w := { push := v, toPush := true, ex := none, got := some (.err e) }) h.log hl rfl (by simp) (fun b hb => by simp [hb]))
    case rv => have := h.rv; have := h.gone; (try simp only [Sp.step, Sp.out, hd, Bool.false_eq_true, if_false, if_true, upd_apply]) <;> grind
    case once => (try simp only [Sp.step, Sp.out, hd, Bool.false_eq_true, if_false, if_true, upd_apply]) <;> (exact onceCons h.once hl)
    case killed => have := h.killed; (try simp only [Sp.step, Sp.out, hd, Bool.false_eq_true, if_false, if_true, upd_apply]) <;> grind
    case sub => (try simp only [Sp.step, Sp.out, hd, Bool.false_eq_true, if_false, if_true, upd_apply]) <;> (exact by simp only [owed, owedBy_upd hna]; exact h.sub.trans (List.sublist_append_left _ _))
    case eqs => have h1 := h.eqs; have h2 := h.ended; (try simp only [Sp.step, Sp.out, hd, Bool.false_eq_true, if_false, if_true, upd_apply]) <;> grind
    case eqPre => have h1 := h.eqPre; have h2 := h.eqs; have h3 := h.ended; have h4 := h.gone; (try simp only [Sp.step, Sp.out, hd, Bool.false_eq_true, if_false, if_true, upd_apply]) <;> grind
    case points => have := h.points; (try simp only [Sp.step, Sp.out, hd, Bool.false_eq_true, if_false, if_true, upd_apply]) <;> grind
  | none =>
    cases hres : s.result with
    | some x =>
      have hpn : s.pushed = none := by
        have := h.eagerR; have := h.eagerP; have := h.eagerQ; have := h.eagerD; have := h.stuck
        simp only [Tidy] at ht
        cases hph : s.phase <;> grind
      have hbf : s.lazy = false → s.buffer = none := by have := h.buf; cases hx : s.buffer <;> grind
      have hbr : s.phase = .running → s.buffer = none := by have := h.lazyR; grind
      have hpd := h.eagerR
      have how : owedBy s.aw s.awaited = [] := by
        have := h.awaited; have := h.waitsN
        cases haw : s.awaited with
        | none => rfl
        | some b =>
          obtain ⟨-, w, hw, -, -, h1, -⟩ := h.awaited b haw
          have : w.toPush = false := by cases hx : w.toPush <;> grind
          simp [owedBy, tp, hw, this]
      by_cases hph : s.phase = .parked ∧ s.lazy = false
      · simp only [St.put, St.suspend, St.bodyResume, St.wake, St.resumeAw, St.takeResult, St.give, St.finish, St.await, St.ready, upd_apply, hex, hres, hpn, hph, if_true, Bool.true_eq_false, Bool.false_eq_true, if_false, ne_eq, not_true_eq_false, false_and, and_false, reduceCtorEq, true_and, and_true, not_false_eq_true, and_self, true_or, Option.isSome_none, Option.isSome_some, Bool.or_true, Bool.or_false, Bool.true_or, Bool.false_or, Bool.or_self]
        constructor
        case ub => have := h.ub; (try simp only [Sp.step, Sp.out, hd, Bool.false_eq_true, if_false, if_true, upd_apply]) <;> grind
        case dropped => have := h.dropped; (try simp only [Sp.step, Sp.out, hd, Bool.false_eq_true, if_false, if_true, upd_apply]) <;> grind
        case ended => have := h.ended; (try simp only [Sp.step, Sp.out, hd, Bool.false_eq_true, if_false, if_true, upd_apply]) <;> grind
        case gone => have := h.gone; (try simp only [Sp.step, Sp.out, hd, Bool.false_eq_true, if_false, if_true, upd_apply]) <;> grind
        case stuck => have := h.stuck; (try simp only [Sp.step, Sp.out, hd, Bool.false_eq_true, if_false, if_true, upd_apply]) <;> grind
        case unrecv => have := h.unrecv; (try simp only [Sp.step, Sp.out, hd, Bool.false_eq_true, if_false, if_true, upd_apply]) <;> grind
        case outs => (try simp only [Sp.step, Sp.out, hd, Bool.false_eq_true, if_false, if_true, upd_apply]) <;> (exact fun _ => by have h1 := h.outs; simp_all [Sp.step, Sp.out, pend, optVal, optErr, ofBody, List.filter_cons])
        case pre => have h1 := h.outs; have h2 := h.pre; have := h.exc; (try simp only [Sp.step, Sp.out, hd, Bool.false_eq_true, if_false, if_true, upd_apply]) <;> grind
        case excBody => have := h.excBody; (try simp only [Sp.step, Sp.out, hd, Bool.false_eq_true, if_false, if_true, upd_apply]) <;> grind
        case buf => have := h.buf; (try simp only [Sp.step, Sp.out, hd, Bool.false_eq_true, if_false, if_true, upd_apply]) <;> grind
        case exc => have := h.exc; (try simp only [Sp.step, Sp.out, hd, Bool.false_eq_true, if_false, if_true, upd_apply]) <;> grind
        case doneA => have := h.doneA; (try simp only [Sp.step, Sp.out, hd, Bool.false_eq_true, if_false, if_true, upd_apply]) <;> grind
        case parkA => have := h.parkA; have := h.gone; (try simp only [Sp.step, Sp.out, hd, Bool.false_eq_true, if_false, if_true, upd_apply]) <;> grind
        case eagerR => have := h.eagerR; (try simp only [Sp.step, Sp.out, hd, Bool.false_eq_true, if_false, if_true, upd_apply]) <;> grind
        case eagerP => have := h.eagerP; have := h.eagerR; (try simp only [Sp.step, Sp.out, hd, Bool.false_eq_true, if_false, if_true, upd_apply]) <;> grind
        case eagerQ => have := h.eagerQ; (try simp only [Sp.step, Sp.out, hd, Bool.false_eq_true, if_false, if_true, upd_apply]) <;> grind
        case lazyR => have := h.lazyR; (try simp only [Sp.step, Sp.out, hd, Bool.false_eq_true, if_false, if_true, upd_apply]) <;> grind
        case eagerD => have := h.eagerD; have := h.eagerR; (try simp only [Sp.step, Sp.out, hd, Bool.false_eq_true, if_false, if_true, upd_apply]) <;> grind
        case awaited => have := h.awaited; (try simp only [Sp.step, Sp.out, hd, Bool.false_eq_true, if_false, if_true, upd_apply]) <;> grind
        case waitsN => have := h.waitsN; have := h.unrecv; have := h.parkA; (try simp only [Sp.step, Sp.out, hd, Bool.false_eq_true, if_false, if_true, upd_apply]) <;> grind
        case pending => have := h.pending; (try simp only [Sp.step, Sp.out, hd, Bool.false_eq_true, if_false, if_true, upd_apply]) <;> grind
        case log => (try simp only [Sp.step, Sp.out, hd, Bool.false_eq_true, if_false, if_true, upd_apply]) <;> (exact logCons (w := { push := v, toPush := false, ex := none, got := some (.val x) }) h.log hl rfl (by simp) (fun b hb => by simp [hb]))
        case rv => have := h.rv; have := h.gone; (try simp only [Sp.step, Sp.out, hd, Bool.false_eq_true, if_false, if_true, upd_apply]) <;> grind
        case once => (try simp only [Sp.step, Sp.out, hd, Bool.false_eq_true, if_false, if_true, upd_apply]) <;> (exact onceCons h.once hl)
        case killed => have := h.killed; (try simp only [Sp.step, Sp.out, hd, Bool.false_eq_true, if_false, if_true, upd_apply]) <;> grind
        case sub => (try simp only [Sp.step, Sp.out, hd, Bool.false_eq_true, if_false, if_true, upd_apply]) <;> (exact by simp only [owed, owedBy_upd hna, how]; have := h.sub; simp only [owed, how, hpn] at this; simpa using this)
        case eqs => have h1 := h.eqs; have h2 := h.ended; (try simp only [Sp.step, Sp.out, hd, Bool.false_eq_true, if_false, if_true, upd_apply]) <;> grind
        case eqPre => have h1 := h.eqPre; have h2 := h.eqs; have h3 := h.ended; have h4 := h.gone; (try simp only [Sp.step, Sp.out, hd, Bool.false_eq_true, if_false, if_true, upd_apply]) <;> grind
        case points => have := h.points; (try simp only [Sp.step, Sp.out, hd, Bool.false_eq_true, if_false, if_true, upd_apply]) <;> grind
      · simp only [St.put, St.suspend, St.bodyResume, St.wake, St.resumeAw, St.takeResult, St.give, St.finish, St.await, St.ready, upd_apply, hex, hres, hpn, hph, if_true, Bool.true_eq_false, Bool.false_eq_true, if_false, ne_eq, not_true_eq_false, false_and, and_false, reduceCtorEq, true_and, and_true, not_false_eq_true, and_self, true_or, Option.isSome_none, Option.isSome_some, Bool.or_true, Bool.or_false, Bool.true_or, Bool.false_or, Bool.or_self]
        constructor
        case ub => have := h.ub; (try simp only [Sp.step, Sp.out, hd, Bool.false_eq_true, if_false, if_true, upd_apply]) <;> grind
        case dropped => have := h.dropped; (try simp only [Sp.step, Sp.out, hd, Bool.false_eq_true, if_false, if_true, upd_apply]) <;> grind
        case ended => have := h.ended; (try simp only [Sp.step, Sp.out, hd, Bool.false_eq_true, if_false, if_true, upd_apply]) <;> grind
        case gone => have := h.gone; (try simp only [Sp.step, Sp.out, hd, Bool.false_eq_true, if_false, if_true, upd_apply]) <;> grind
        case stuck => have := h.stuck; (try simp only [Sp.step, Sp.out, hd, Bool.false_eq_true, if_false, if_true, upd_apply]) <;> grind
        case unrecv => have := h.unrecv; (try simp only [Sp.step, Sp.out, hd, Bool.false_eq_true, if_false, if_true, upd_apply]) <;> grind
        case outs => (try simp only [Sp.step, Sp.out, hd, Bool.false_eq_true, if_false, if_true, upd_apply]) <;> (exact fun _ => by have h1 := h.outs; simp_all [Sp.step, Sp.out, pend, optVal, optErr, ofBody, List.filter_cons])
        case pre => have h1 := h.outs; have h2 := h.pre; have := h.exc; (try simp only [Sp.step, Sp.out, hd, Bool.false_eq_true, if_false, if_true, upd_apply]) <;> grind
        case excBody => have := h.excBody; (try simp only [Sp.step, Sp.out, hd, Bool.false_eq_true, if_false, if_true, upd_apply]) <;> grind
        case buf => have := h.buf; (try simp only [Sp.step, Sp.out, hd, Bool.false_eq_true, if_false, if_true, upd_apply]) <;> grind
        case exc => have := h.exc; (try simp only [Sp.step, Sp.out, hd, Bool.false_eq_true, if_false, if_true, upd_apply]) <;> grind
        case doneA => have := h.doneA; (try simp only [Sp.step, Sp.out, hd, Bool.false_eq_true, if_false, if_true, upd_apply]) <;> grind
        case parkA => have := h.parkA; have := h.gone; (try simp only [Sp.step, Sp.out, hd, Bool.false_eq_true, if_false, if_true, upd_apply]) <;> grind
        case eagerR => have := h.eagerR; (try simp only [Sp.step, Sp.out, hd, Bool.false_eq_true, if_false, if_true, upd_apply]) <;> grind
        case eagerP => have := h.eagerP; have := h.eagerR; (try simp only [Sp.step, Sp.out, hd, Bool.false_eq_true, if_false, if_true, upd_apply]) <;> grind
        case eagerQ => have := h.eagerQ; (try simp only [Sp.step, Sp.out, hd, Bool.false_eq_true, if_false, if_true, upd_apply]) <;> grind
        case lazyR => have := h.lazyR; (try simp only [Sp.step, Sp.out, hd, Bool.false_eq_true, if_false, if_true, upd_apply]) <;> grind
        case eagerD => have := h.eagerD; have := h.eagerR; (try simp only [Sp.step, Sp.out, hd, Bool.false_eq_true, if_false, if_true, upd_apply]) <;> grind
        case awaited => have := h.awaited; (try simp only [Sp.step, Sp.out, hd, Bool.false_eq_true, if_false, if_true, upd_apply]) <;> grind
        case waitsN => have := h.waitsN; have := h.unrecv; have := h.parkA; (try simp only [Sp.step, Sp.out, hd, Bool.false_eq_true, if_false, if_true, upd_apply]) <;> grind
        case pending => have := h.pending; (try simp only [Sp.step, Sp.out, hd, Bool.false_eq_true, if_false, if_true, upd_apply]) <;> grind
        case log => (try simp only [Sp.step, Sp.out, hd, Bool.false_eq_true, if_false, if_true, upd_apply]) <;> (exact logCons (w := { push := v, toPush := false, ex := none, got := some (.val x) }) h.log hl rfl (by simp) (fun b hb => by simp [hb]))
        case rv => have := h.rv; have := h.gone; (try simp only [Sp.step, Sp.out, hd, Bool.false_eq_true, if_false, if_true, upd_apply]) <;> grind
        case once => (try simp only [Sp.step, Sp.out, hd, Bool.false_eq_true, if_false, if_true, upd_apply]) <;> (exact onceCons h.once hl)
        case killed => have := h.killed; (try simp only [Sp.step, Sp.out, hd, Bool.false_eq_true, if_false, if_true, upd_apply]) <;> grind
        case sub => (try simp only [Sp.step, Sp.out, hd, Bool.false_eq_true, if_false, if_true, upd_apply]) <;> (exact by simp only [owed, owedBy_upd hna, how]; have := h.sub; simp only [owed, how, hpn] at this; simpa using this)
        case eqs => have h1 := h.eqs; have h2 := h.ended; (try simp only [Sp.step, Sp.out, hd, Bool.false_eq_true, if_false, if_true, upd_apply]) <;> grind
        case eqPre => have h1 := h.eqPre; have h2 := h.eqs; have h3 := h.ended; have h4 := h.gone; (try simp only [Sp.step, Sp.out, hd, Bool.false_eq_true, if_false, if_true, upd_apply]) <;> grind
        case points => have := h.points; (try simp only [Sp.step, Sp.out, hd, Bool.false_eq_true, if_false, if_true, upd_apply]) <;> grind
    | none =>
      have hbuf : s.buffer = none := by
        cases hx : s.buffer with
        | none => rfl
        | some e => exact absurd hres (h.buf e hx).1
      cases hdn : s.done with
      | true =>
        simp only [St.put, St.suspend, St.bodyResume, St.wake, St.resumeAw, St.takeResult, St.give, St.finish, St.await, St.ready, upd_apply, hex, hres, hdn, if_true, Bool.true_eq_false, Bool.false_eq_true, if_false, ne_eq, not_true_eq_false, false_and, and_false, reduceCtorEq, true_and, and_true, not_false_eq_true, and_self, true_or, Option.isSome_none, Option.isSome_some, Bool.or_true, Bool.or_false, Bool.true_or, Bool.false_or, Bool.or_self]
        constructor
        case ub => have := h.ub; (try simp only [Sp.step, Sp.out, hd, Bool.false_eq_true, if_false, if_true, upd_apply]) <;> grind
        case dropped => have := h.dropped; (try simp only [Sp.step, Sp.out, hd, Bool.false_eq_true, if_false, if_true, upd_apply]) <;> grind
        case ended => have := h.ended; (try simp only [Sp.step, Sp.out, hd, Bool.false_eq_true, if_false, if_true, upd_apply]) <;> grind
        case gone => have := h.gone; (try simp only [Sp.step, Sp.out, hd, Bool.false_eq_true, if_false, if_true, upd_apply]) <;> grind
        case stuck => have := h.stuck; (try simp only [Sp.step, Sp.out, hd, Bool.false_eq_true, if_false, if_true, upd_apply]) <;> grind
        case unrecv => have := h.unrecv; (try simp only [Sp.step, Sp.out, hd, Bool.false_eq_true, if_false, if_true, upd_apply]) <;> grind
        case outs => (try simp only [Sp.step, Sp.out, hd, Bool.false_eq_true, if_false, if_true, upd_apply]) <;> (exact fun _ => by have h1 := h.outs; simp_all [Sp.step, Sp.out, pend, optVal, optErr, ofBody, List.filter_cons])
        case pre => have h1 := h.outs; have h2 := h.pre; have := h.exc; (try simp only [Sp.step, Sp.out, hd, Bool.false_eq_true, if_false, if_true, upd_apply]) <;> grind
        case excBody => have := h.excBody; (try simp only [Sp.step, Sp.out, hd, Bool.false_eq_true, if_false, if_true, upd_apply]) <;> grind
        case buf => have := h.buf; (try simp only [Sp.step, Sp.out, hd, Bool.false_eq_true, if_false, if_true, upd_apply]) <;> grind
        case exc => have := h.exc; (try simp only [Sp.step, Sp.out, hd, Bool.false_eq_true, if_false, if_true, upd_apply]) <;> grind
        case doneA => have := h.doneA; (try simp only [Sp.step, Sp.out, hd, Bool.false_eq_true, if_false, if_true, upd_apply]) <;> grind
        case parkA => have := h.parkA; have := h.gone; (try simp only [Sp.step, Sp.out, hd, Bool.false_eq_true, if_false, if_true, upd_apply]) <;> grind
        case eagerR => have := h.eagerR; (try simp only [Sp.step, Sp.out, hd, Bool.false_eq_true, if_false, if_true, upd_apply]) <;> grind
        case eagerP => have := h.eagerP; have := h.eagerR; (try simp only [Sp.step, Sp.out, hd, Bool.false_eq_true, if_false, if_true, upd_apply]) <;> grind
        case eagerQ => have := h.eagerQ; (try simp only [Sp.step, Sp.out, hd, Bool.false_eq_true, if_false, if_true, upd_apply]) <;> grind
        case lazyR => have := h.lazyR; (try simp only [Sp.step, Sp.out, hd, Bool.false_eq_true, if_false, if_true, upd_apply]) <;> grind
        case eagerD => have := h.eagerD; have := h.eagerR; (try simp only [Sp.step, Sp.out, hd, Bool.false_eq_true, if_false, if_true, upd_apply]) <;> grind
        case awaited => have := h.awaited; (try simp only [Sp.step, Sp.out, hd, Bool.false_eq_true, if_false, if_true, upd_apply]) <;> grind
        case waitsN => have := h.waitsN; have := h.unrecv; have := h.parkA; (try simp only [Sp.step, Sp.out, hd, Bool.false_eq_true, if_false, if_true, upd_apply]) <;> grind
        case pending => have := h.pending; (try simp only [Sp.step, Sp.out, hd, Bool.false_eq_true, if_false, if_true, upd_apply]) <;> grind
        case log => (try simp only [Sp.step, Sp.out, hd, Bool.false_eq_true, if_false, if_true, upd_apply]) <;> (exact logCons (w := { push := v, toPush := true, ex := none, got := some (.err .returnedVoid) }) h.log hl rfl (by simp) (fun b hb => by simp [hb]))
        case rv => have := h.rv; have := h.gone; (try simp only [Sp.step, Sp.out, hd, Bool.false_eq_true, if_false, if_true, upd_apply]) <;> grind
        case once => (try simp only [Sp.step, Sp.out, hd, Bool.false_eq_true, if_false, if_true, upd_apply]) <;> (exact onceCons h.once hl)
        case killed => have := h.killed; (try simp only [Sp.step, Sp.out, hd, Bool.false_eq_true, if_false, if_true, upd_apply]) <;> grind
        case sub => (try simp only [Sp.step, Sp.out, hd, Bool.false_eq_true, if_false, if_true, upd_apply]) <;> (exact by simp only [owed, owedBy_upd hna]; exact h.sub.trans (List.sublist_append_left _ _))
        case eqs => have h1 := h.eqs; have h2 := h.ended; (try simp only [Sp.step, Sp.out, hd, Bool.false_eq_true, if_false, if_true, upd_apply]) <;> grind
        case eqPre => have h1 := h.eqPre; have h2 := h.eqs; have h3 := h.ended; have h4 := h.gone; (try simp only [Sp.step, Sp.out, hd, Bool.false_eq_true, if_false, if_true, upd_apply]) <;> grind
        case points => have := h.points; (try simp only [Sp.step, Sp.out, hd, Bool.false_eq_true, if_false, if_true, upd_apply]) <;> grind
      | false =>
        cases haw : s.awaited with
        | some b =>
          simp only [St.put, St.suspend, St.bodyResume, St.wake, St.resumeAw, St.takeResult, St.give, St.finish, St.await, St.ready, upd_apply, hex, hres, hdn, haw, if_true, Bool.true_eq_false, Bool.false_eq_true, if_false, ne_eq, not_true_eq_false, false_and, and_false, reduceCtorEq, true_and, and_true, not_false_eq_true, and_self, true_or, Option.isSome_none, Option.isSome_some, Bool.or_true, Bool.or_false, Bool.true_or, Bool.false_or, Bool.or_self]
          constructor
          case ub => have := h.ub; (try simp only [Sp.step, Sp.out, hd, Bool.false_eq_true, if_false, if_true, upd_apply]) <;> grind
          case dropped => have := h.dropped; (try simp only [Sp.step, Sp.out, hd, Bool.false_eq_true, if_false, if_true, upd_apply]) <;> grind
          case ended => have := h.ended; (try simp only [Sp.step, Sp.out, hd, Bool.false_eq_true, if_false, if_true, upd_apply]) <;> grind
          case gone => have := h.gone; (try simp only [Sp.step, Sp.out, hd, Bool.false_eq_true, if_false, if_true, upd_apply]) <;> grind
          case stuck => have := h.stuck; (try simp only [Sp.step, Sp.out, hd, Bool.false_eq_true, if_false, if_true, upd_apply]) <;> grind
          case unrecv => have := h.unrecv; (try simp only [Sp.step, Sp.out, hd, Bool.false_eq_true, if_false, if_true, upd_apply]) <;> grind
          case outs => (try simp only [Sp.step, Sp.out, hd, Bool.false_eq_true, if_false, if_true, upd_apply]) <;> (exact fun _ => by have h1 := h.outs; simp_all [Sp.step, Sp.out, pend, optVal, optErr, ofBody, List.filter_cons])
          case pre => have h1 := h.outs; have h2 := h.pre; have := h.exc; (try simp only [Sp.step, Sp.out, hd, Bool.false_eq_true, if_false, if_true, upd_apply]) <;> grind
          case excBody => have := h.excBody; (try simp only [Sp.step, Sp.out, hd, Bool.false_eq_true, if_false, if_true, upd_apply]) <;> grind
          case buf => have := h.buf; (try simp only [Sp.step, Sp.out, hd, Bool.false_eq_true, if_false, if_true, upd_apply]) <;> grind
          case exc => have := h.exc; (try simp only [Sp.step, Sp.out, hd, Bool.false_eq_true, if_false, if_true, upd_apply]) <;> grind
          case doneA => have := h.doneA; (try simp only [Sp.step, Sp.out, hd, Bool.false_eq_true, if_false, if_true, upd_apply]) <;> grind
          case parkA => have := h.parkA; have := h.gone; (try simp only [Sp.step, Sp.out, hd, Bool.false_eq_true, if_false, if_true, upd_apply]) <;> grind
          case eagerR => have := h.eagerR; (try simp only [Sp.step, Sp.out, hd, Bool.false_eq_true, if_false, if_true, upd_apply]) <;> grind
          case eagerP => have := h.eagerP; have := h.eagerR; (try simp only [Sp.step, Sp.out, hd, Bool.false_eq_true, if_false, if_true, upd_apply]) <;> grind
          case eagerQ => have := h.eagerQ; (try simp only [Sp.step, Sp.out, hd, Bool.false_eq_true, if_false, if_true, upd_apply]) <;> grind
          case lazyR => have := h.lazyR; (try simp only [Sp.step, Sp.out, hd, Bool.false_eq_true, if_false, if_true, upd_apply]) <;> grind
          case eagerD => have := h.eagerD; have := h.eagerR; (try simp only [Sp.step, Sp.out, hd, Bool.false_eq_true, if_false, if_true, upd_apply]) <;> grind
          case awaited => have := h.awaited; (try simp only [Sp.step, Sp.out, hd, Bool.false_eq_true, if_false, if_true, upd_apply]) <;> grind
          case waitsN => have := h.waitsN; have := h.unrecv; have := h.parkA; (try simp only [Sp.step, Sp.out, hd, Bool.false_eq_true, if_false, if_true, upd_apply]) <;> grind
          case pending => have := h.pending; (try simp only [Sp.step, Sp.out, hd, Bool.false_eq_true, if_false, if_true, upd_apply]) <;> grind
          case log => (try simp only [Sp.step, Sp.out, hd, Bool.false_eq_true, if_false, if_true, upd_apply]) <;> (exact logCons (w := { push := v, toPush := true, ex := some .alreadyAwaited, got := some (.err .alreadyAwaited) }) h.log hl rfl (by simp) (fun b hb => by simp [hb]))
          case rv => have := h.rv; have := h.gone; (try simp only [Sp.step, Sp.out, hd, Bool.false_eq_true, if_false, if_true, upd_apply]) <;> grind
          case once => (try simp only [Sp.step, Sp.out, hd, Bool.false_eq_true, if_false, if_true, upd_apply]) <;> (exact onceCons h.once hl)
          case killed => have := h.killed; (try simp only [Sp.step, Sp.out, hd, Bool.false_eq_true, if_false, if_true, upd_apply]) <;> grind
          case sub => (try simp only [Sp.step, Sp.out, hd, Bool.false_eq_true, if_false, if_true, upd_apply]) <;> (exact by rw [haw] at hna; simp only [owed, owedBy_upd hna]; have := h.sub; simp only [owed, haw] at this; exact this.trans (List.sublist_append_left _ _))
          case eqs => have h1 := h.eqs; have h2 := h.ended; (try simp only [Sp.step, Sp.out, hd, Bool.false_eq_true, if_false, if_true, upd_apply]) <;> grind
          case eqPre => have h1 := h.eqPre; have h2 := h.eqs; have h3 := h.ended; have h4 := h.gone; (try simp only [Sp.step, Sp.out, hd, Bool.false_eq_true, if_false, if_true, upd_apply]) <;> grind
          case points => have := h.points; (try simp only [Sp.step, Sp.out, hd, Bool.false_eq_true, if_false, if_true, upd_apply]) <;> grind
        | none =>
          simp only [St.await, St.ready, hex, hres, hdn, haw, if_true, Bool.true_eq_false, Bool.false_eq_true, if_false, ne_eq, not_true_eq_false, false_and, and_false, reduceCtorEq, true_and, and_true, not_false_eq_true, and_self, true_or, Option.isSome_none, Option.isSome_some, Bool.or_true, Bool.or_false, Bool.true_or, Bool.false_or, Bool.or_self]
          simp only [Tidy, haw, ne_eq, not_true_eq_false, imp_false] at ht
          have hq := h.eagerQ hrv
          have hpe := h.eagerP
          have hgn := h.gone hrv
          have hst := h.stuck hrv
          by_cases hlz : s.lazy = true ∧ s.pushed = none
          · simp only [hlz, if_true, Bool.true_eq_false, Bool.false_eq_true, if_false, ne_eq, not_true_eq_false, false_and, and_false, reduceCtorEq, true_and, and_true, not_false_eq_true, and_self, true_or, Option.isSome_none, Option.isSome_some, Bool.or_true, Bool.or_false, Bool.true_or, Bool.false_or, Bool.or_self]
            by_cases hph : s.phase = .parked
            · simp only [hph, St.bodyResume, upd_apply, if_true]
              constructor
              case ub => have := h.ub; (try simp only [Sp.step, Sp.out, hd, Bool.false_eq_true, if_false, if_true, upd_apply]) <;> grind
              case dropped => have := h.dropped; (try simp only [Sp.step, Sp.out, hd, Bool.false_eq_true, if_false, if_true, upd_apply]) <;> grind
              case ended => have := h.ended; (try simp only [Sp.step, Sp.out, hd, Bool.false_eq_true, if_false, if_true, upd_apply]) <;> grind
              case gone => have := h.gone; (try simp only [Sp.step, Sp.out, hd, Bool.false_eq_true, if_false, if_true, upd_apply]) <;> grind
              case stuck => have := h.stuck; (try simp only [Sp.step, Sp.out, hd, Bool.false_eq_true, if_false, if_true, upd_apply]) <;> grind
              case unrecv => have := h.unrecv; (try simp only [Sp.step, Sp.out, hd, Bool.false_eq_true, if_false, if_true, upd_apply]) <;> grind
              case outs => (try simp only [Sp.step, Sp.out, hd, Bool.false_eq_true, if_false, if_true, upd_apply]) <;> (exact fun _ => by have h1 := h.outs; simp_all [Sp.step, Sp.out, pend, optVal, optErr, ofBody, List.filter_cons])
              case pre => have h1 := h.outs; have h2 := h.pre; have := h.exc; (try simp only [Sp.step, Sp.out, hd, Bool.false_eq_true, if_false, if_true, upd_apply]) <;> grind
              case excBody => have := h.excBody; (try simp only [Sp.step, Sp.out, hd, Bool.false_eq_true, if_false, if_true, upd_apply]) <;> grind
              case buf => have := h.buf; (try simp only [Sp.step, Sp.out, hd, Bool.false_eq_true, if_false, if_true, upd_apply]) <;> grind
              case exc => have := h.exc; (try simp only [Sp.step, Sp.out, hd, Bool.false_eq_true, if_false, if_true, upd_apply]) <;> grind
              case doneA => have := h.doneA; (try simp only [Sp.step, Sp.out, hd, Bool.false_eq_true, if_false, if_true, upd_apply]) <;> grind
              case parkA => have := h.parkA; have := h.gone; (try simp only [Sp.step, Sp.out, hd, Bool.false_eq_true, if_false, if_true, upd_apply]) <;> grind
              case eagerR => have := h.eagerR; (try simp only [Sp.step, Sp.out, hd, Bool.false_eq_true, if_false, if_true, upd_apply]) <;> grind
              case eagerP => have := h.eagerP; have := h.eagerR; (try simp only [Sp.step, Sp.out, hd, Bool.false_eq_true, if_false, if_true, upd_apply]) <;> grind
              case eagerQ => have := h.eagerQ; (try simp only [Sp.step, Sp.out, hd, Bool.false_eq_true, if_false, if_true, upd_apply]) <;> grind
              case lazyR => have := h.lazyR; (try simp only [Sp.step, Sp.out, hd, Bool.false_eq_true, if_false, if_true, upd_apply]) <;> grind
              case eagerD => have := h.eagerD; have := h.eagerR; (try simp only [Sp.step, Sp.out, hd, Bool.false_eq_true, if_false, if_true, upd_apply]) <;> grind
              case awaited => (try simp only [Sp.step, Sp.out, hd, Bool.false_eq_true, if_false, if_true, upd_apply]) <;> (exact by (intro b hb; obtain rfl : a = b := by simpa using hb); exact ⟨hk, _, if_pos rfl, rfl, rfl, by grind, by grind⟩)
              case waitsN => have := h.waitsN; have := h.unrecv; have := h.parkA; (try simp only [Sp.step, Sp.out, hd, Bool.false_eq_true, if_false, if_true, upd_apply]) <;> grind
              case pending => have := h.pending; (try simp only [Sp.step, Sp.out, hd, Bool.false_eq_true, if_false, if_true, upd_apply]) <;> grind
              case log => have := h.log; (try simp only [Sp.step, Sp.out, hd, Bool.false_eq_true, if_false, if_true, upd_apply]) <;> grind
              case rv => have := h.rv; have := h.gone; (try simp only [Sp.step, Sp.out, hd, Bool.false_eq_true, if_false, if_true, upd_apply]) <;> grind
              case once => have := h.once; (try simp only [Sp.step, Sp.out, hd, Bool.false_eq_true, if_false, if_true, upd_apply]) <;> grind
              case killed => have := h.killed; (try simp only [Sp.step, Sp.out, hd, Bool.false_eq_true, if_false, if_true, upd_apply]) <;> grind
              case sub => have h1 := h.sub; (try simp only [Sp.step, Sp.out, hd, Bool.false_eq_true, if_false, if_true, upd_apply]) <;> grind
              case eqs => have h1 := h.eqs; have h2 := h.ended; (try simp only [Sp.step, Sp.out, hd, Bool.false_eq_true, if_false, if_true, upd_apply]) <;> grind
              case eqPre => have h1 := h.eqPre; have h2 := h.eqs; have h3 := h.ended; have h4 := h.gone; (try simp only [Sp.step, Sp.out, hd, Bool.false_eq_true, if_false, if_true, upd_apply]) <;> grind
              case points => have := h.points; (try simp only [Sp.step, Sp.out, hd, Bool.false_eq_true, if_false, if_true, upd_apply]) <;> grind
            · simp only [hph, upd_apply, if_false]
              constructor
              case ub => have := h.ub; (try simp only [Sp.step, Sp.out, hd, Bool.false_eq_true, if_false, if_true, upd_apply]) <;> grind
              case dropped => have := h.dropped; (try simp only [Sp.step, Sp.out, hd, Bool.false_eq_true, if_false, if_true, upd_apply]) <;> grind
              case ended => have := h.ended; (try simp only [Sp.step, Sp.out, hd, Bool.false_eq_true, if_false, if_true, upd_apply]) <;> grind
              case gone => have := h.gone; (try simp only [Sp.step, Sp.out, hd, Bool.false_eq_true, if_false, if_true, upd_apply]) <;> grind
              case stuck => have := h.stuck; (try simp only [Sp.step, Sp.out, hd, Bool.false_eq_true, if_false, if_true, upd_apply]) <;> grind
              case unrecv => have := h.unrecv; (try simp only [Sp.step, Sp.out, hd, Bool.false_eq_true, if_false, if_true, upd_apply]) <;> grind
              case outs => (try simp only [Sp.step, Sp.out, hd, Bool.false_eq_true, if_false, if_true, upd_apply]) <;> (exact fun _ => by have h1 := h.outs; simp_all [Sp.step, Sp.out, pend, optVal, optErr, ofBody, List.filter_cons])
              case pre => have h1 := h.outs; have h2 := h.pre; have := h.exc; (try simp only [Sp.step, Sp.out, hd, Bool.false_eq_true, if_false, if_true, upd_apply]) <;> grind
              case excBody => have := h.excBody; (try simp only [Sp.step, Sp.out, hd, Bool.false_eq_true, if_false, if_true, upd_apply]) <;> grind
              case buf => have := h.buf; (try simp only [Sp.step, Sp.out, hd, Bool.false_eq_true, if_false, if_true, upd_apply]) <;> grind
              case exc => have := h.exc; (try simp only [Sp.step, Sp.out, hd, Bool.false_eq_true, if_false, if_true, upd_apply]) <;> grind
              case doneA => have := h.doneA; (try simp only [Sp.step, Sp.out, hd, Bool.false_eq_true, if_false, if_true, upd_apply]) <;> grind
              case parkA => have := h.parkA; have := h.gone; (try simp only [Sp.step, Sp.out, hd, Bool.false_eq_true, if_false, if_true, upd_apply]) <;> grind
              case eagerR => have := h.eagerR; (try simp only [Sp.step, Sp.out, hd, Bool.false_eq_true, if_false, if_true, upd_apply]) <;> grind
              case eagerP => have := h.eagerP; have := h.eagerR; (try simp only [Sp.step, Sp.out, hd, Bool.false_eq_true, if_false, if_true, upd_apply]) <;> grind
              case eagerQ => have := h.eagerQ; (try simp only [Sp.step, Sp.out, hd, Bool.false_eq_true, if_false, if_true, upd_apply]) <;> grind
              case lazyR => have := h.lazyR; (try simp only [Sp.step, Sp.out, hd, Bool.false_eq_true, if_false, if_true, upd_apply]) <;> grind
              case eagerD => have := h.eagerD; have := h.eagerR; (try simp only [Sp.step, Sp.out, hd, Bool.false_eq_true, if_false, if_true, upd_apply]) <;> grind
              case awaited => (try simp only [Sp.step, Sp.out, hd, Bool.false_eq_true, if_false, if_true, upd_apply]) <;> (exact by (intro b hb; obtain rfl : a = b := by simpa using hb); exact ⟨hk, _, if_pos rfl, rfl, rfl, by grind, by grind⟩)
              case waitsN => have := h.waitsN; have := h.unrecv; have := h.parkA; (try simp only [Sp.step, Sp.out, hd, Bool.false_eq_true, if_false, if_true, upd_apply]) <;> grind
              case pending => have := h.pending; (try simp only [Sp.step, Sp.out, hd, Bool.false_eq_true, if_false, if_true, upd_apply]) <;> grind
              case log => have := h.log; (try simp only [Sp.step, Sp.out, hd, Bool.false_eq_true, if_false, if_true, upd_apply]) <;> grind
              case rv => have := h.rv; have := h.gone; (try simp only [Sp.step, Sp.out, hd, Bool.false_eq_true, if_false, if_true, upd_apply]) <;> grind
              case once => have := h.once; (try simp only [Sp.step, Sp.out, hd, Bool.false_eq_true, if_false, if_true, upd_apply]) <;> grind
              case killed => have := h.killed; (try simp only [Sp.step, Sp.out, hd, Bool.false_eq_true, if_false, if_true, upd_apply]) <;> grind
              case sub => have h1 := h.sub; (try simp only [Sp.step, Sp.out, hd, Bool.false_eq_true, if_false, if_true, upd_apply]) <;> grind
              case eqs => have h1 := h.eqs; have h2 := h.ended; (try simp only [Sp.step, Sp.out, hd, Bool.false_eq_true, if_false, if_true, upd_apply]) <;> grind
              case eqPre => have h1 := h.eqPre; have h2 := h.eqs; have h3 := h.ended; have h4 := h.gone; (try simp only [Sp.step, Sp.out, hd, Bool.false_eq_true, if_false, if_true, upd_apply]) <;> grind
              case points => have := h.points; (try simp only [Sp.step, Sp.out, hd, Bool.false_eq_true, if_false, if_true, upd_apply]) <;> grind
          · simp only [hlz, if_false]
            by_cases hph : s.phase = .parked
            · have hlt : s.lazy = true := by grind
              have hpp : s.pushed ≠ none := by grind
              obtain ⟨u, hu⟩ := Option.ne_none_iff_exists'.1 hpp
              simp only [hph, St.bodyResume, hu, upd_apply, if_true]
              constructor
              case ub => have := h.ub; (try simp only [Sp.step, Sp.out, hd, Bool.false_eq_true, if_false, if_true, upd_apply]) <;> grind
              case dropped => have := h.dropped; (try simp only [Sp.step, Sp.out, hd, Bool.false_eq_true, if_false, if_true, upd_apply]) <;> grind
              case ended => have := h.ended; (try simp only [Sp.step, Sp.out, hd, Bool.false_eq_true, if_false, if_true, upd_apply]) <;> grind
              case gone => have := h.gone; (try simp only [Sp.step, Sp.out, hd, Bool.false_eq_true, if_false, if_true, upd_apply]) <;> grind
              case stuck => have := h.stuck; (try simp only [Sp.step, Sp.out, hd, Bool.false_eq_true, if_false, if_true, upd_apply]) <;> grind
              case unrecv => have := h.unrecv; (try simp only [Sp.step, Sp.out, hd, Bool.false_eq_true, if_false, if_true, upd_apply]) <;> grind
              case outs => (try simp only [Sp.step, Sp.out, hd, Bool.false_eq_true, if_false, if_true, upd_apply]) <;> (exact fun _ => by have h1 := h.outs; simp_all [Sp.step, Sp.out, pend, optVal, optErr, ofBody, List.filter_cons])
              case pre => have h1 := h.outs; have h2 := h.pre; have := h.exc; (try simp only [Sp.step, Sp.out, hd, Bool.false_eq_true, if_false, if_true, upd_apply]) <;> grind
              case excBody => have := h.excBody; (try simp only [Sp.step, Sp.out, hd, Bool.false_eq_true, if_false, if_true, upd_apply]) <;> grind
              case buf => have := h.buf; (try simp only [Sp.step, Sp.out, hd, Bool.false_eq_true, if_false, if_true, upd_apply]) <;> grind
              case exc => have := h.exc; (try simp only [Sp.step, Sp.out, hd, Bool.false_eq_true, if_false, if_true, upd_apply]) <;> grind
              case doneA => have := h.doneA; (try simp only [Sp.step, Sp.out, hd, Bool.false_eq_true, if_false, if_true, upd_apply]) <;> grind
              case parkA => have := h.parkA; have := h.gone; (try simp only [Sp.step, Sp.out, hd, Bool.false_eq_true, if_false, if_true, upd_apply]) <;> grind
              case eagerR => have := h.eagerR; (try simp only [Sp.step, Sp.out, hd, Bool.false_eq_true, if_false, if_true, upd_apply]) <;> grind
              case eagerP => have := h.eagerP; have := h.eagerR; (try simp only [Sp.step, Sp.out, hd, Bool.false_eq_true, if_false, if_true, upd_apply]) <;> grind
              case eagerQ => have := h.eagerQ; (try simp only [Sp.step, Sp.out, hd, Bool.false_eq_true, if_false, if_true, upd_apply]) <;> grind
              case lazyR => have := h.lazyR; (try simp only [Sp.step, Sp.out, hd, Bool.false_eq_true, if_false, if_true, upd_apply]) <;> grind
              case eagerD => have := h.eagerD; have := h.eagerR; (try simp only [Sp.step, Sp.out, hd, Bool.false_eq_true, if_false, if_true, upd_apply]) <;> grind
              case awaited => (try simp only [Sp.step, Sp.out, hd, Bool.false_eq_true, if_false, if_true, upd_apply]) <;> (exact by (intro b hb; obtain rfl : a = b := by simpa using hb); exact ⟨hk, _, if_pos rfl, rfl, rfl, by grind, by grind⟩)
              case waitsN => have := h.waitsN; have := h.unrecv; have := h.parkA; (try simp only [Sp.step, Sp.out, hd, Bool.false_eq_true, if_false, if_true, upd_apply]) <;> grind
              case pending => have := h.pending; (try simp only [Sp.step, Sp.out, hd, Bool.false_eq_true, if_false, if_true, upd_apply]) <;> grind
              case log => have := h.log; (try simp only [Sp.step, Sp.out, hd, Bool.false_eq_true, if_false, if_true, upd_apply]) <;> grind
              case rv => have := h.rv; have := h.gone; (try simp only [Sp.step, Sp.out, hd, Bool.false_eq_true, if_false, if_true, upd_apply]) <;> grind
              case once => have := h.once; (try simp only [Sp.step, Sp.out, hd, Bool.false_eq_true, if_false, if_true, upd_apply]) <;> grind
              case killed => have := h.killed; (try simp only [Sp.step, Sp.out, hd, Bool.false_eq_true, if_false, if_true, upd_apply]) <;> grind
              case sub => have h1 := h.sub; (try simp only [Sp.step, Sp.out, hd, Bool.false_eq_true, if_false, if_true, upd_apply]) <;> grind
              case eqs => have h1 := h.eqs; have h2 := h.ended; (try simp only [Sp.step, Sp.out, hd, Bool.false_eq_true, if_false, if_true, upd_apply]) <;> grind
              case eqPre => have h1 := h.eqPre; have h2 := h.eqs; have h3 := h.ended; have h4 := h.gone; (try simp only [Sp.step, Sp.out, hd, Bool.false_eq_true, if_false, if_true, upd_apply]) <;> grind
              case points => have := h.points; (try simp only [Sp.step, Sp.out, hd, Bool.false_eq_true, if_false, if_true, upd_apply]) <;> grind
            · have hlf : s.lazy = false := by cases hph' : s.phase <;> grind
              simp only [hph, upd_apply, if_false]
              constructor
              case ub => have := h.ub; (try simp only [Sp.step, Sp.out, hd, Bool.false_eq_true, if_false, if_true, upd_apply]) <;> grind
              case dropped => have := h.dropped; (try simp only [Sp.step, Sp.out, hd, Bool.false_eq_true, if_false, if_true, upd_apply]) <;> grind
              case ended => have := h.ended; (try simp only [Sp.step, Sp.out, hd, Bool.false_eq_true, if_false, if_true, upd_apply]) <;> grind
              case gone => have := h.gone; (try simp only [Sp.step, Sp.out, hd, Bool.false_eq_true, if_false, if_true, upd_apply]) <;> grind
              case stuck => have := h.stuck; (try simp only [Sp.step, Sp.out, hd, Bool.false_eq_true, if_false, if_true, upd_apply]) <;> grind
              case unrecv => have := h.unrecv; (try simp only [Sp.step, Sp.out, hd, Bool.false_eq_true, if_false, if_true, upd_apply]) <;> grind
              case outs => (try simp only [Sp.step, Sp.out, hd, Bool.false_eq_true, if_false, if_true, upd_apply]) <;> (exact fun _ => by have h1 := h.outs; simp_all [Sp.step, Sp.out, pend, optVal, optErr, ofBody, List.filter_cons])
              case pre => have h1 := h.outs; have h2 := h.pre; have := h.exc; (try simp only [Sp.step, Sp.out, hd, Bool.false_eq_true, if_false, if_true, upd_apply]) <;> grind
              case excBody => have := h.excBody; (try simp only [Sp.step, Sp.out, hd, Bool.false_eq_true, if_false, if_true, upd_apply]) <;> grind
              case buf => have := h.buf; (try simp only [Sp.step, Sp.out, hd, Bool.false_eq_true, if_false, if_true, upd_apply]) <;> grind
              case exc => have := h.exc; (try simp only [Sp.step, Sp.out, hd, Bool.false_eq_true, if_false, if_true, upd_apply]) <;> grind
              case doneA => have := h.doneA; (try simp only [Sp.step, Sp.out, hd, Bool.false_eq_true, if_false, if_true, upd_apply]) <;> grind
              case parkA => have := h.parkA; have := h.gone; (try simp only [Sp.step, Sp.out, hd, Bool.false_eq_true, if_false, if_true, upd_apply]) <;> grind
              case eagerR => have := h.eagerR; (try simp only [Sp.step, Sp.out, hd, Bool.false_eq_true, if_false, if_true, upd_apply]) <;> grind
              case eagerP => have := h.eagerP; have := h.eagerR; (try simp only [Sp.step, Sp.out, hd, Bool.false_eq_true, if_false, if_true, upd_apply]) <;> grind
              case eagerQ => have := h.eagerQ; (try simp only [Sp.step, Sp.out, hd, Bool.false_eq_true, if_false, if_true, upd_apply]) <;> grind
              case lazyR => have := h.lazyR; (try simp only [Sp.step, Sp.out, hd, Bool.false_eq_true, if_false, if_true, upd_apply]) <;> grind
              case eagerD => have := h.eagerD; have := h.eagerR; (try simp only [Sp.step, Sp.out, hd, Bool.false_eq_true, if_false, if_true, upd_apply]) <;> grind
              case awaited => (try simp only [Sp.step, Sp.out, hd, Bool.false_eq_true, if_false, if_true, upd_apply]) <;> (exact by (intro b hb; obtain rfl : a = b := by simpa using hb); exact ⟨hk, _, if_pos rfl, rfl, rfl, by grind, by grind⟩)
              case waitsN => have := h.waitsN; have := h.unrecv; have := h.parkA; (try simp only [Sp.step, Sp.out, hd, Bool.false_eq_true, if_false, if_true, upd_apply]) <;> grind
              case pending => have := h.pending; (try simp only [Sp.step, Sp.out, hd, Bool.false_eq_true, if_false, if_true, upd_apply]) <;> grind
              case log => have := h.log; (try simp only [Sp.step, Sp.out, hd, Bool.false_eq_true, if_false, if_true, upd_apply]) <;> grind
              case rv => have := h.rv; have := h.gone; (try simp only [Sp.step, Sp.out, hd, Bool.false_eq_true, if_false, if_true, upd_apply]) <;> grind
              case once => have := h.once; (try simp only [Sp.step, Sp.out, hd, Bool.false_eq_true, if_false, if_true, upd_apply]) <;> grind
              case killed => have := h.killed; (try simp only [Sp.step, Sp.out, hd, Bool.false_eq_true, if_false, if_true, upd_apply]) <;> grind
              case sub => have h1 := h.sub; (try simp only [Sp.step, Sp.out, hd, Bool.false_eq_true, if_false, if_true, upd_apply]) <;> grind
              case eqs => have h1 := h.eqs; have h2 := h.ended; (try simp only [Sp.step, Sp.out, hd, Bool.false_eq_true, if_false, if_true, upd_apply]) <;> grind
              case eqPre => have h1 := h.eqPre; have h2 := h.eqs; have h3 := h.ended; have h4 := h.gone; (try simp only [Sp.step, Sp.out, hd, Bool.false_eq_true, if_false, if_true, upd_apply]) <;> grind
              case points => have := h.points; (try simp only [Sp.step, Sp.out, hd, Bool.false_eq_true, if_false, if_true, upd_apply]) <;> grind


theorem Inv.interrupt (h : Inv q p s) {a : Nat} (hc : s.can (.interrupt a) = true) (ht : Tidy p s (.interrupt a))
    (hq : q = true → Plain s (.interrupt a)) :
    Inv q (p.step (.interrupt a)) (s.step (.interrupt a)) := by
  unfold St.step; rw [if_neg (by simp [h.ub, hc])]
  simp only [Plain] at hq
  simp only [St.can, Bool.and_eq_true] at hc
  obtain ⟨⟨hrv, -⟩, -⟩ := hc
  have hd : p.dropped = false := by rw [h.dropped, hrv]; rfl
  have hub := h.ub
  obtain ⟨haw, ht⟩ := ht
  obtain ⟨hk, w, hw, hwx, hwg, hwp, hwe⟩ := h.awaited a haw
  have hl : ∀ g, (a, g) ∉ s.log := by
    intro g hg; obtain ⟨w', h1, h2⟩ := (h.log a g).1 hg; grind
  simp only [St.put, St.suspend, St.bodyResume, St.wake, St.resumeAw, St.takeResult, St.give, St.finish, St.interrupt, hw, haw, upd_apply, if_true, Bool.true_eq_false, Bool.false_eq_true, if_false, ne_eq, not_true_eq_false, false_and, and_false, reduceCtorEq, true_and, and_true, not_false_eq_true, and_self, true_or, Option.isSome_none, Option.isSome_some, Bool.or_true, Bool.or_false, Bool.true_or, Bool.false_or, Bool.or_self]
  constructor
  case ub => have := h.ub; (try simp only [Sp.step, Sp.out, hd, Bool.false_eq_true, if_false, if_true, upd_apply]) <;> grind
  case dropped => have := h.dropped; (try simp only [Sp.step, Sp.out, hd, Bool.false_eq_true, if_false, if_true, upd_apply]) <;> grind
  case ended => have := h.ended; (try simp only [Sp.step, Sp.out, hd, Bool.false_eq_true, if_false, if_true, upd_apply]) <;> grind
  case gone => have := h.gone; (try simp only [Sp.step, Sp.out, hd, Bool.false_eq_true, if_false, if_true, upd_apply]) <;> grind
  case stuck => have := h.stuck; (try simp only [Sp.step, Sp.out, hd, Bool.false_eq_true, if_false, if_true, upd_apply]) <;> grind
  case unrecv => have := h.unrecv; (try simp only [Sp.step, Sp.out, hd, Bool.false_eq_true, if_false, if_true, upd_apply]) <;> grind
  case outs => (try simp only [Sp.step, Sp.out, hd, Bool.false_eq_true, if_false, if_true, upd_apply]) <;> (exact fun _ => by have h1 := h.outs; simp_all [Sp.step, Sp.out, pend, optVal, optErr, ofBody, List.filter_cons])
  case pre => have h1 := h.outs; have h2 := h.pre; have := h.exc; (try simp only [Sp.step, Sp.out, hd, Bool.false_eq_true, if_false, if_true, upd_apply]) <;> grind
  case excBody => have := h.excBody; (try simp only [Sp.step, Sp.out, hd, Bool.false_eq_true, if_false, if_true, upd_apply]) <;> grind
  case buf => have := h.buf; (try simp only [Sp.step, Sp.out, hd, Bool.false_eq_true, if_false, if_true, upd_apply]) <;> grind
  case exc => have := h.exc; (try simp only [Sp.step, Sp.out, hd, Bool.false_eq_true, if_false, if_true, upd_apply]) <;> grind
  case doneA => have := h.doneA; (try simp only [Sp.step, Sp.out, hd, Bool.false_eq_true, if_false, if_true, upd_apply]) <;> grind
  case parkA => have := h.parkA; have := h.gone; (try simp only [Sp.step, Sp.out, hd, Bool.false_eq_true, if_false, if_true, upd_apply]) <;> grind
  case eagerR => have := h.eagerR; (try simp only [Sp.step, Sp.out, hd, Bool.false_eq_true, if_false, if_true, upd_apply]) <;> grind
  case eagerP => have := h.eagerP; have := h.eagerR; (try simp only [Sp.step, Sp.out, hd, Bool.false_eq_true, if_false, if_true, upd_apply]) <;> grind
  case eagerQ => have := h.eagerQ; (try simp only [Sp.step, Sp.out, hd, Bool.false_eq_true, if_false, if_true, upd_apply]) <;> grind
  case lazyR => have := h.lazyR; (try simp only [Sp.step, Sp.out, hd, Bool.false_eq_true, if_false, if_true, upd_apply]) <;> grind
  case eagerD => have := h.eagerD; have := h.eagerR; (try simp only [Sp.step, Sp.out, hd, Bool.false_eq_true, if_false, if_true, upd_apply]) <;> grind
  case awaited => have := h.awaited; (try simp only [Sp.step, Sp.out, hd, Bool.false_eq_true, if_false, if_true, upd_apply]) <;> grind
  case waitsN => have := h.waitsN; have := h.unrecv; have := h.parkA; (try simp only [Sp.step, Sp.out, hd, Bool.false_eq_true, if_false, if_true, upd_apply]) <;> grind
  case pending => have := h.pending; (try simp only [Sp.step, Sp.out, hd, Bool.false_eq_true, if_false, if_true, upd_apply]) <;> grind
  case log => (try simp only [Sp.step, Sp.out, hd, Bool.false_eq_true, if_false, if_true, upd_apply]) <;> (exact logCons (w := { push := w.push, toPush := w.toPush, ex := some .detached, got := some (.err .detached) }) h.log hl rfl (by simp) (fun b hb => by simp [hb]))
  case rv => have := h.rv; have := h.gone; (try simp only [Sp.step, Sp.out, hd, Bool.false_eq_true, if_false, if_true, upd_apply]) <;> grind
  case once => (try simp only [Sp.step, Sp.out, hd, Bool.false_eq_true, if_false, if_true, upd_apply]) <;> (exact onceCons h.once hl)
  case killed => have := h.killed; (try simp only [Sp.step, Sp.out, hd, Bool.false_eq_true, if_false, if_true, upd_apply]) <;> grind
  case sub => have h1 := h.sub; (try simp only [Sp.step, Sp.out, hd, Bool.false_eq_true, if_false, if_true, upd_apply]) <;> grind
  case eqs => have h1 := h.eqs; have h2 := h.ended; (try simp only [Sp.step, Sp.out, hd, Bool.false_eq_true, if_false, if_true, upd_apply]) <;> grind
  case eqPre => have h1 := h.eqPre; have h2 := h.eqs; have h3 := h.ended; have h4 := h.gone; (try simp only [Sp.step, Sp.out, hd, Bool.false_eq_true, if_false, if_true, upd_apply]) <;> grind
  case points => have := h.points; (try simp only [Sp.step, Sp.out, hd, Bool.false_eq_true, if_false, if_true, upd_apply]) <;> grind


theorem Inv.get (h : Inv q p s) {a : Nat} (hc : s.can (.get a) = true) (ht : Tidy p s (.get a))
    (hq : q = true → Plain s (.get a)) :
    Inv q (p.step (.get a)) (s.step (.get a)) := by
  unfold St.step; rw [if_neg (by simp [h.ub, hc])]
  simp only [Plain] at hq
  simp only [St.can, Bool.and_eq_true, Option.isNone_iff_eq_none] at hc
  obtain ⟨hrv, ha⟩ := hc
  have hd : p.dropped = false := by rw [h.dropped, hrv]; rfl
  have hub := h.ub
  have hk : a ∉ s.killed := by
    intro hk; obtain ⟨w, hw, -⟩ := h.killed a hk; rw [ha] at hw; simp at hw
  have hl : ∀ g, (a, g) ∉ s.log := by
    intro g hg; obtain ⟨w', h1, h2⟩ := (h.log a g).1 hg; rw [ha] at h1; simp at h1
  have hna : s.awaited ≠ some a := by
    intro hx; obtain ⟨-, w, hw, -⟩ := h.awaited a hx; rw [ha] at hw; simp at hw
  obtain ⟨hld, hex, hres⟩ := ht
  obtain ⟨x, hres⟩ := Option.ne_none_iff_exists'.1 hres
  have hbr : s.phase = .running → s.buffer = none := by have := h.lazyR; grind
  simp only [St.get, St.give, hex, hres, if_true, Bool.true_eq_false, Bool.false_eq_true, if_false, ne_eq, not_true_eq_false, false_and, and_false, reduceCtorEq, true_and, and_true, not_false_eq_true, and_self, true_or, Option.isSome_none, Option.isSome_some, Bool.or_true, Bool.or_false, Bool.true_or, Bool.false_or, Bool.or_self]
  constructor
  case ub => have := h.ub; (try simp only [Sp.step, Sp.out, hd, Bool.false_eq_true, if_false, if_true, upd_apply]) <;> grind
  case dropped => have := h.dropped; (try simp only [Sp.step, Sp.out, hd, Bool.false_eq_true, if_false, if_true, upd_apply]) <;> grind
  case ended => have := h.ended; (try simp only [Sp.step, Sp.out, hd, Bool.false_eq_true, if_false, if_true, upd_apply]) <;> grind
  case gone => have := h.gone; (try simp only [Sp.step, Sp.out, hd, Bool.false_eq_true, if_false, if_true, upd_apply]) <;> grind
  case stuck => have := h.stuck; (try simp only [Sp.step, Sp.out, hd, Bool.false_eq_true, if_false, if_true, upd_apply]) <;> grind
  case unrecv => have := h.unrecv; (try simp only [Sp.step, Sp.out, hd, Bool.false_eq_true, if_false, if_true, upd_apply]) <;> grind
  case outs => (try simp only [Sp.step, Sp.out, hd, Bool.false_eq_true, if_false, if_true, upd_apply]) <;> (exact fun _ => by have h1 := h.outs; simp_all [Sp.step, Sp.out, pend, optVal, optErr, ofBody, List.filter_cons])
  case pre => have h1 := h.outs; have h2 := h.pre; have := h.exc; (try simp only [Sp.step, Sp.out, hd, Bool.false_eq_true, if_false, if_true, upd_apply]) <;> grind
  case excBody => have := h.excBody; (try simp only [Sp.step, Sp.out, hd, Bool.false_eq_true, if_false, if_true, upd_apply]) <;> grind
  case buf => have := h.buf; (try simp only [Sp.step, Sp.out, hd, Bool.false_eq_true, if_false, if_true, upd_apply]) <;> grind
  case exc => have := h.exc; (try simp only [Sp.step, Sp.out, hd, Bool.false_eq_true, if_false, if_true, upd_apply]) <;> grind
  case doneA => have := h.doneA; (try simp only [Sp.step, Sp.out, hd, Bool.false_eq_true, if_false, if_true, upd_apply]) <;> grind
  case parkA => have := h.parkA; have := h.gone; (try simp only [Sp.step, Sp.out, hd, Bool.false_eq_true, if_false, if_true, upd_apply]) <;> grind
  case eagerR => have := h.eagerR; (try simp only [Sp.step, Sp.out, hd, Bool.false_eq_true, if_false, if_true, upd_apply]) <;> grind
  case eagerP => have := h.eagerP; have := h.parkA; (try simp only [Sp.step, Sp.out, hd, Bool.false_eq_true, if_false, if_true, upd_apply]) <;> grind
  case eagerQ => have := h.eagerQ; (try simp only [Sp.step, Sp.out, hd, Bool.false_eq_true, if_false, if_true, upd_apply]) <;> grind
  case lazyR => have := h.lazyR; (try simp only [Sp.step, Sp.out, hd, Bool.false_eq_true, if_false, if_true, upd_apply]) <;> grind
  case eagerD => have := h.eagerD; have := h.eagerR; (try simp only [Sp.step, Sp.out, hd, Bool.false_eq_true, if_false, if_true, upd_apply]) <;> grind
  case awaited => have := h.awaited; (try simp only [Sp.step, Sp.out, hd, Bool.false_eq_true, if_false, if_true, upd_apply]) <;> grind
  case waitsN => have := h.waitsN; have := h.unrecv; have := h.parkA; (try simp only [Sp.step, Sp.out, hd, Bool.false_eq_true, if_false, if_true, upd_apply]) <;> grind
  case pending => have := h.pending; (try simp only [Sp.step, Sp.out, hd, Bool.false_eq_true, if_false, if_true, upd_apply]) <;> grind
  case log => (try simp only [Sp.step, Sp.out, hd, Bool.false_eq_true, if_false, if_true, upd_apply]) <;> (exact logCons (w := { push := 0, toPush := false, ex := none, got := some (.val x) }) h.log hl rfl (by simp) (fun b hb => by simp [hb]))
  case rv => have := h.rv; have := h.gone; (try simp only [Sp.step, Sp.out, hd, Bool.false_eq_true, if_false, if_true, upd_apply]) <;> grind
  case once => (try simp only [Sp.step, Sp.out, hd, Bool.false_eq_true, if_false, if_true, upd_apply]) <;> (exact onceCons h.once hl)
  case killed => have := h.killed; (try simp only [Sp.step, Sp.out, hd, Bool.false_eq_true, if_false, if_true, upd_apply]) <;> grind
  case sub => (try simp only [Sp.step, Sp.out, hd, Bool.false_eq_true, if_false, if_true, upd_apply]) <;> (exact by simp only [owed, owedBy_upd hna]; exact h.sub)
  case eqs => have h1 := h.eqs; have h2 := h.ended; (try simp only [Sp.step, Sp.out, hd, Bool.false_eq_true, if_false, if_true, upd_apply]) <;> grind
  case eqPre => have h1 := h.eqPre; have h2 := h.eqs; have h3 := h.ended; have h4 := h.gone; (try simp only [Sp.step, Sp.out, hd, Bool.false_eq_true, if_false, if_true, upd_apply]) <;> grind
  case points => have := h.points; (try simp only [Sp.step, Sp.out, hd, Bool.false_eq_true, if_false, if_true, upd_apply]) <;> grind


theorem Inv.drop (h : Inv q p s) (hc : s.can (.drop) = true) :
    Inv q (p.step (.drop)) (s.step (.drop)) := by
  unfold St.step; rw [if_neg (by simp [h.ub, hc])]
  simp only [St.can] at hc
  have hrv := hc
  have hd : p.dropped = false := by rw [h.dropped, hrv]; rfl
  cases haw : s.awaited with
  | none =>
    simp only [St.drop, St.dead, haw]
    constructor
    case ub => have := h.ub; (try simp only [Sp.step, Sp.out, hd, Bool.false_eq_true, if_false, if_true, upd_apply]) <;> grind
    case dropped => have := h.dropped; (try simp only [Sp.step, Sp.out, hd, Bool.false_eq_true, if_false, if_true, upd_apply]) <;> grind
    case ended => have := h.ended; (try simp only [Sp.step, Sp.out, hd, Bool.false_eq_true, if_false, if_true, upd_apply]) <;> grind
    case gone => have := h.gone; (try simp only [Sp.step, Sp.out, hd, Bool.false_eq_true, if_false, if_true, upd_apply]) <;> grind
    case stuck => have := h.stuck; (try simp only [Sp.step, Sp.out, hd, Bool.false_eq_true, if_false, if_true, upd_apply]) <;> grind
    case unrecv => have := h.unrecv; (try simp only [Sp.step, Sp.out, hd, Bool.false_eq_true, if_false, if_true, upd_apply]) <;> grind
    case outs => (try simp only [Sp.step, Sp.out, hd, Bool.false_eq_true, if_false, if_true, upd_apply]) <;> (exact fun _ => by have h1 := h.outs; simp_all [Sp.step, Sp.out, pend, optVal, optErr, ofBody, List.filter_cons])
    case pre => have := h.pre; (try simp only [Sp.step, Sp.out, hd, Bool.false_eq_true, if_false, if_true, upd_apply]) <;> grind
    case excBody => have := h.excBody; (try simp only [Sp.step, Sp.out, hd, Bool.false_eq_true, if_false, if_true, upd_apply]) <;> grind
    case buf => have := h.buf; (try simp only [Sp.step, Sp.out, hd, Bool.false_eq_true, if_false, if_true, upd_apply]) <;> grind
    case exc => have := h.exc; (try simp only [Sp.step, Sp.out, hd, Bool.false_eq_true, if_false, if_true, upd_apply]) <;> grind
    case doneA => have := h.doneA; (try simp only [Sp.step, Sp.out, hd, Bool.false_eq_true, if_false, if_true, upd_apply]) <;> grind
    case parkA => have := h.parkA; have := h.gone; (try simp only [Sp.step, Sp.out, hd, Bool.false_eq_true, if_false, if_true, upd_apply]) <;> grind
    case eagerR => have := h.eagerR; (try simp only [Sp.step, Sp.out, hd, Bool.false_eq_true, if_false, if_true, upd_apply]) <;> grind
    case eagerP => have := h.eagerP; have := h.eagerR; (try simp only [Sp.step, Sp.out, hd, Bool.false_eq_true, if_false, if_true, upd_apply]) <;> grind
    case eagerQ => have := h.eagerQ; (try simp only [Sp.step, Sp.out, hd, Bool.false_eq_true, if_false, if_true, upd_apply]) <;> grind
    case lazyR => have := h.lazyR; (try simp only [Sp.step, Sp.out, hd, Bool.false_eq_true, if_false, if_true, upd_apply]) <;> grind
    case eagerD => have := h.eagerD; have := h.eagerR; (try simp only [Sp.step, Sp.out, hd, Bool.false_eq_true, if_false, if_true, upd_apply]) <;> grind
    case awaited => have := h.awaited; (try simp only [Sp.step, Sp.out, hd, Bool.false_eq_true, if_false, if_true, upd_apply]) <;> grind
    case waitsN => have := h.waitsN; have := h.unrecv; have := h.parkA; (try simp only [Sp.step, Sp.out, hd, Bool.false_eq_true, if_false, if_true, upd_apply]) <;> grind
    case pending => have := h.pending; (try simp only [Sp.step, Sp.out, hd, Bool.false_eq_true, if_false, if_true, upd_apply]) <;> grind
    case log => have := h.log; (try simp only [Sp.step, Sp.out, hd, Bool.false_eq_true, if_false, if_true, upd_apply]) <;> grind
    case rv => have := h.rv; have := h.gone; (try simp only [Sp.step, Sp.out, hd, Bool.false_eq_true, if_false, if_true, upd_apply]) <;> grind
    case once => have := h.once; (try simp only [Sp.step, Sp.out, hd, Bool.false_eq_true, if_false, if_true, upd_apply]) <;> grind
    case killed => have := h.killed; (try simp only [Sp.step, Sp.out, hd, Bool.false_eq_true, if_false, if_true, upd_apply]) <;> grind
    case sub => have h1 := h.sub; (try simp only [Sp.step, Sp.out, hd, Bool.false_eq_true, if_false, if_true, upd_apply]) <;> grind
    case eqs => have h1 := h.eqs; have h2 := h.ended; (try simp only [Sp.step, Sp.out, hd, Bool.false_eq_true, if_false, if_true, upd_apply]) <;> grind
    case eqPre => have h1 := h.eqPre; have h2 := h.eqs; have h3 := h.ended; have h4 := h.gone; (try simp only [Sp.step, Sp.out, hd, Bool.false_eq_true, if_false, if_true, upd_apply]) <;> grind
    case points => have := h.points; (try simp only [Sp.step, Sp.out, hd, Bool.false_eq_true, if_false, if_true, upd_apply]) <;> grind
  | some a =>
    obtain ⟨hk, w, hw, hwx, hwg, hwp, hwe⟩ := h.awaited a haw
    have hl : ∀ g, (a, g) ∉ s.log := by
      intro g hg; obtain ⟨w', h1, h2⟩ := (h.log a g).1 hg; grind
    simp only [St.drop, St.dead, haw]
    constructor
    case ub => have := h.ub; (try simp only [Sp.step, Sp.out, hd, Bool.false_eq_true, if_false, if_true, upd_apply]) <;> grind
    case dropped => have := h.dropped; (try simp only [Sp.step, Sp.out, hd, Bool.false_eq_true, if_false, if_true, upd_apply]) <;> grind
    case ended => have := h.ended; (try simp only [Sp.step, Sp.out, hd, Bool.false_eq_true, if_false, if_true, upd_apply]) <;> grind
    case gone => have := h.gone; (try simp only [Sp.step, Sp.out, hd, Bool.false_eq_true, if_false, if_true, upd_apply]) <;> grind
    case stuck => have := h.stuck; (try simp only [Sp.step, Sp.out, hd, Bool.false_eq_true, if_false, if_true, upd_apply]) <;> grind
    case unrecv => have := h.unrecv; (try simp only [Sp.step, Sp.out, hd, Bool.false_eq_true, if_false, if_true, upd_apply]) <;> grind
    case outs => (try simp only [Sp.step, Sp.out, hd, Bool.false_eq_true, if_false, if_true, upd_apply]) <;> (exact fun _ => by have h1 := h.outs; simp_all [Sp.step, Sp.out, pend, optVal, optErr, ofBody, List.filter_cons])
    case pre => have := h.pre; (try simp only [Sp.step, Sp.out, hd, Bool.false_eq_true, if_false, if_true, upd_apply]) <;> grind
    case excBody => have := h.excBody; (try simp only [Sp.step, Sp.out, hd, Bool.false_eq_true, if_false, if_true, upd_apply]) <;> grind
    case buf => have := h.buf; (try simp only [Sp.step, Sp.out, hd, Bool.false_eq_true, if_false, if_true, upd_apply]) <;> grind
    case exc => have := h.exc; (try simp only [Sp.step, Sp.out, hd, Bool.false_eq_true, if_false, if_true, upd_apply]) <;> grind
    case doneA => have := h.doneA; (try simp only [Sp.step, Sp.out, hd, Bool.false_eq_true, if_false, if_true, upd_apply]) <;> grind
    case parkA => have := h.parkA; have := h.gone; (try simp only [Sp.step, Sp.out, hd, Bool.false_eq_true, if_false, if_true, upd_apply]) <;> grind
    case eagerR => have := h.eagerR; (try simp only [Sp.step, Sp.out, hd, Bool.false_eq_true, if_false, if_true, upd_apply]) <;> grind
    case eagerP => have := h.eagerP; have := h.eagerR; (try simp only [Sp.step, Sp.out, hd, Bool.false_eq_true, if_false, if_true, upd_apply]) <;> grind
    case eagerQ => have := h.eagerQ; (try simp only [Sp.step, Sp.out, hd, Bool.false_eq_true, if_false, if_true, upd_apply]) <;> grind
    case lazyR => have := h.lazyR; (try simp only [Sp.step, Sp.out, hd, Bool.false_eq_true, if_false, if_true, upd_apply]) <;> grind
    case eagerD => have := h.eagerD; have := h.eagerR; (try simp only [Sp.step, Sp.out, hd, Bool.false_eq_true, if_false, if_true, upd_apply]) <;> grind
    case awaited => have := h.awaited; (try simp only [Sp.step, Sp.out, hd, Bool.false_eq_true, if_false, if_true, upd_apply]) <;> grind
    case waitsN => have := h.waitsN; have := h.unrecv; have := h.parkA; (try simp only [Sp.step, Sp.out, hd, Bool.false_eq_true, if_false, if_true, upd_apply]) <;> grind
    case pending => have := h.pending; (try simp only [Sp.step, Sp.out, hd, Bool.false_eq_true, if_false, if_true, upd_apply]) <;> grind
    case log => have := h.log; (try simp only [Sp.step, Sp.out, hd, Bool.false_eq_true, if_false, if_true, upd_apply]) <;> grind
    case rv => have := h.rv; have := h.gone; (try simp only [Sp.step, Sp.out, hd, Bool.false_eq_true, if_false, if_true, upd_apply]) <;> grind
    case once => have := h.once; (try simp only [Sp.step, Sp.out, hd, Bool.false_eq_true, if_false, if_true, upd_apply]) <;> grind
    case killed => have := h.killed; (try simp only [Sp.step, Sp.out, hd, Bool.false_eq_true, if_false, if_true, upd_apply]) <;> grind
    case sub => have h1 := h.sub; (try simp only [Sp.step, Sp.out, hd, Bool.false_eq_true, if_false, if_true, upd_apply]) <;> grind
    case eqs => have h1 := h.eqs; have h2 := h.ended; (try simp only [Sp.step, Sp.out, hd, Bool.false_eq_true, if_false, if_true, upd_apply]) <;> grind
    case eqPre => have h1 := h.eqPre; have h2 := h.eqs; have h3 := h.ended; have h4 := h.gone; (try simp only [Sp.step, Sp.out, hd, Bool.false_eq_true, if_false, if_true, upd_apply]) <;> grind
    case points => have := h.points; (try simp only [Sp.step, Sp.out, hd, Bool.false_eq_true, if_false, if_true, upd_apply]) <;> grind


theorem Inv.initial (h : Inv q p s) (hc : s.can (.initial) = true) (ht : Tidy p s (.initial)) :
    Inv q (p.step (.initial)) (s.step (.initial)) := by
  unfold St.step; rw [if_neg (by simp [h.ub, hc])]
  simp only [St.can, beq_iff_eq] at hc
  have haw : s.awaited = none := ht
  cases hrv : s.recv with
  | false =>
    have hd : p.dropped = true := by rw [h.dropped, hrv]; rfl
    have hub := h.ub
    simp only [hrv, St.suspend, if_true, Bool.true_eq_false, Bool.false_eq_true, if_false, ne_eq, not_true_eq_false, false_and, and_false, reduceCtorEq, true_and, and_true, not_false_eq_true, and_self, true_or, Option.isSome_none, Option.isSome_some, Bool.or_true, Bool.or_false, Bool.true_or, Bool.false_or, Bool.or_self]
    constructor
    case ub => have := h.ub; (try simp only [Sp.step, Sp.out, hd, Bool.false_eq_true, if_false, if_true, upd_apply]) <;> grind
    case dropped => have := h.dropped; (try simp only [Sp.step, Sp.out, hd, Bool.false_eq_true, if_false, if_true, upd_apply]) <;> grind
    case ended => have := h.ended; (try simp only [Sp.step, Sp.out, hd, Bool.false_eq_true, if_false, if_true, upd_apply]) <;> grind
    case gone => have := h.gone; (try simp only [Sp.step, Sp.out, hd, Bool.false_eq_true, if_false, if_true, upd_apply]) <;> grind
    case stuck => have := h.stuck; (try simp only [Sp.step, Sp.out, hd, Bool.false_eq_true, if_false, if_true, upd_apply]) <;> grind
    case unrecv => have := h.unrecv; (try simp only [Sp.step, Sp.out, hd, Bool.false_eq_true, if_false, if_true, upd_apply]) <;> grind
    case outs => (try simp only [Sp.step, Sp.out, hd, Bool.false_eq_true, if_false, if_true, upd_apply]) <;> (exact fun _ => by have h1 := h.outs; simp_all [Sp.step, Sp.out, pend, optVal, optErr, ofBody, List.filter_cons])
    case pre => have h1 := h.outs; have h2 := h.pre; have := h.exc; (try simp only [Sp.step, Sp.out, hd, Bool.false_eq_true, if_false, if_true, upd_apply]) <;> grind
    case excBody => have := h.excBody; (try simp only [Sp.step, Sp.out, hd, Bool.false_eq_true, if_false, if_true, upd_apply]) <;> grind
    case buf => have := h.buf; (try simp only [Sp.step, Sp.out, hd, Bool.false_eq_true, if_false, if_true, upd_apply]) <;> grind
    case exc => have := h.exc; (try simp only [Sp.step, Sp.out, hd, Bool.false_eq_true, if_false, if_true, upd_apply]) <;> grind
    case doneA => have := h.doneA; (try simp only [Sp.step, Sp.out, hd, Bool.false_eq_true, if_false, if_true, upd_apply]) <;> grind
    case parkA => have := h.parkA; have := h.gone; (try simp only [Sp.step, Sp.out, hd, Bool.false_eq_true, if_false, if_true, upd_apply]) <;> grind
    case eagerR => have := h.eagerR; (try simp only [Sp.step, Sp.out, hd, Bool.false_eq_true, if_false, if_true, upd_apply]) <;> grind
    case eagerP => have := h.eagerP; have := h.eagerR; (try simp only [Sp.step, Sp.out, hd, Bool.false_eq_true, if_false, if_true, upd_apply]) <;> grind
    case eagerQ => have := h.eagerQ; (try simp only [Sp.step, Sp.out, hd, Bool.false_eq_true, if_false, if_true, upd_apply]) <;> grind
    case lazyR => have := h.lazyR; (try simp only [Sp.step, Sp.out, hd, Bool.false_eq_true, if_false, if_true, upd_apply]) <;> grind
    case eagerD => have := h.eagerD; have := h.eagerR; (try simp only [Sp.step, Sp.out, hd, Bool.false_eq_true, if_false, if_true, upd_apply]) <;> grind
    case awaited => have := h.awaited; (try simp only [Sp.step, Sp.out, hd, Bool.false_eq_true, if_false, if_true, upd_apply]) <;> grind
    case waitsN => have := h.waitsN; have := h.unrecv; have := h.parkA; (try simp only [Sp.step, Sp.out, hd, Bool.false_eq_true, if_false, if_true, upd_apply]) <;> grind
    case pending => have := h.pending; (try simp only [Sp.step, Sp.out, hd, Bool.false_eq_true, if_false, if_true, upd_apply]) <;> grind
    case log => have := h.log; (try simp only [Sp.step, Sp.out, hd, Bool.false_eq_true, if_false, if_true, upd_apply]) <;> grind
    case rv => have := h.rv; have := h.gone; (try simp only [Sp.step, Sp.out, hd, Bool.false_eq_true, if_false, if_true, upd_apply]) <;> grind
    case once => have := h.once; (try simp only [Sp.step, Sp.out, hd, Bool.false_eq_true, if_false, if_true, upd_apply]) <;> grind
    case killed => have := h.killed; (try simp only [Sp.step, Sp.out, hd, Bool.false_eq_true, if_false, if_true, upd_apply]) <;> grind
    case sub => have h1 := h.sub; (try simp only [Sp.step, Sp.out, hd, Bool.false_eq_true, if_false, if_true, upd_apply]) <;> grind
    case eqs => have h1 := h.eqs; have h2 := h.ended; (try simp only [Sp.step, Sp.out, hd, Bool.false_eq_true, if_false, if_true, upd_apply]) <;> grind
    case eqPre => have h1 := h.eqPre; have h2 := h.eqs; have h3 := h.ended; have h4 := h.gone; (try simp only [Sp.step, Sp.out, hd, Bool.false_eq_true, if_false, if_true, upd_apply]) <;> grind
    case points => have := h.points; (try simp only [Sp.step, Sp.out, hd, Bool.false_eq_true, if_false, if_true, upd_apply]) <;> grind
  | true =>
    have hd : p.dropped = false := by rw [h.dropped, hrv]; rfl
    have hub := h.ub
    by_cases hp : s.pushed ≠ none ∧ (s.void = true ∨ s.result = none)
    · obtain ⟨u, hu⟩ := Option.ne_none_iff_exists'.1 hp.1
      simp only [hrv, if_true, St.suspend, hp, ne_eq, not_false_eq_true, and_self, Bool.true_eq_false, if_false, St.bodyResume, hu]
      constructor
      case ub => have := h.ub; (try simp only [Sp.step, Sp.out, hd, Bool.false_eq_true, if_false, if_true, upd_apply]) <;> grind
      case dropped => have := h.dropped; (try simp only [Sp.step, Sp.out, hd, Bool.false_eq_true, if_false, if_true, upd_apply]) <;> grind
      case ended => have := h.ended; (try simp only [Sp.step, Sp.out, hd, Bool.false_eq_true, if_false, if_true, upd_apply]) <;> grind
      case gone => have := h.gone; (try simp only [Sp.step, Sp.out, hd, Bool.false_eq_true, if_false, if_true, upd_apply]) <;> grind
      case stuck => have := h.stuck; (try simp only [Sp.step, Sp.out, hd, Bool.false_eq_true, if_false, if_true, upd_apply]) <;> grind
      case unrecv => have := h.unrecv; (try simp only [Sp.step, Sp.out, hd, Bool.false_eq_true, if_false, if_true, upd_apply]) <;> grind
      case outs => (try simp only [Sp.step, Sp.out, hd, Bool.false_eq_true, if_false, if_true, upd_apply]) <;> (exact fun _ => by have h1 := h.outs; simp_all [Sp.step, Sp.out, pend, optVal, optErr, ofBody, List.filter_cons])
      case pre => have h1 := h.outs; have h2 := h.pre; have := h.exc; (try simp only [Sp.step, Sp.out, hd, Bool.false_eq_true, if_false, if_true, upd_apply]) <;> grind
      case excBody => have := h.excBody; (try simp only [Sp.step, Sp.out, hd, Bool.false_eq_true, if_false, if_true, upd_apply]) <;> grind
      case buf => have := h.buf; (try simp only [Sp.step, Sp.out, hd, Bool.false_eq_true, if_false, if_true, upd_apply]) <;> grind
      case exc => have := h.exc; (try simp only [Sp.step, Sp.out, hd, Bool.false_eq_true, if_false, if_true, upd_apply]) <;> grind
      case doneA => have := h.doneA; (try simp only [Sp.step, Sp.out, hd, Bool.false_eq_true, if_false, if_true, upd_apply]) <;> grind
      case parkA => have := h.parkA; have := h.gone; (try simp only [Sp.step, Sp.out, hd, Bool.false_eq_true, if_false, if_true, upd_apply]) <;> grind
      case eagerR => have := h.eagerR; (try simp only [Sp.step, Sp.out, hd, Bool.false_eq_true, if_false, if_true, upd_apply]) <;> grind
      case eagerP => have := h.eagerP; have := h.eagerR; (try simp only [Sp.step, Sp.out, hd, Bool.false_eq_true, if_false, if_true, upd_apply]) <;> grind
      case eagerQ => have := h.eagerQ; (try simp only [Sp.step, Sp.out, hd, Bool.false_eq_true, if_false, if_true, upd_apply]) <;> grind
      case lazyR => have := h.lazyR; (try simp only [Sp.step, Sp.out, hd, Bool.false_eq_true, if_false, if_true, upd_apply]) <;> grind
      case eagerD => have := h.eagerD; have := h.eagerR; (try simp only [Sp.step, Sp.out, hd, Bool.false_eq_true, if_false, if_true, upd_apply]) <;> grind
      case awaited => have := h.awaited; (try simp only [Sp.step, Sp.out, hd, Bool.false_eq_true, if_false, if_true, upd_apply]) <;> grind
      case waitsN => have := h.waitsN; have := h.unrecv; have := h.parkA; (try simp only [Sp.step, Sp.out, hd, Bool.false_eq_true, if_false, if_true, upd_apply]) <;> grind
      case pending => have := h.pending; (try simp only [Sp.step, Sp.out, hd, Bool.false_eq_true, if_false, if_true, upd_apply]) <;> grind
      case log => have := h.log; (try simp only [Sp.step, Sp.out, hd, Bool.false_eq_true, if_false, if_true, upd_apply]) <;> grind
      case rv => have := h.rv; have := h.gone; (try simp only [Sp.step, Sp.out, hd, Bool.false_eq_true, if_false, if_true, upd_apply]) <;> grind
      case once => have := h.once; (try simp only [Sp.step, Sp.out, hd, Bool.false_eq_true, if_false, if_true, upd_apply]) <;> grind
      case killed => have := h.killed; (try simp only [Sp.step, Sp.out, hd, Bool.false_eq_true, if_false, if_true, upd_apply]) <;> grind
      case sub => have h1 := h.sub; (try simp only [Sp.step, Sp.out, hd, Bool.false_eq_true, if_false, if_true, upd_apply]) <;> grind
      case eqs => have h1 := h.eqs; have h2 := h.ended; (try simp only [Sp.step, Sp.out, hd, Bool.false_eq_true, if_false, if_true, upd_apply]) <;> grind
      case eqPre => have h1 := h.eqPre; have h2 := h.eqs; have h3 := h.ended; have h4 := h.gone; (try simp only [Sp.step, Sp.out, hd, Bool.false_eq_true, if_false, if_true, upd_apply]) <;> grind
      case points => have := h.points; (try simp only [Sp.step, Sp.out, hd, Bool.false_eq_true, if_false, if_true, upd_apply]) <;> grind
    · simp only [hrv, if_true, St.suspend, hp, Bool.true_eq_false, if_false, St.wake, haw]
      constructor
      case ub => have := h.ub; (try simp only [Sp.step, Sp.out, hd, Bool.false_eq_true, if_false, if_true, upd_apply]) <;> grind
      case dropped => have := h.dropped; (try simp only [Sp.step, Sp.out, hd, Bool.false_eq_true, if_false, if_true, upd_apply]) <;> grind
      case ended => have := h.ended; (try simp only [Sp.step, Sp.out, hd, Bool.false_eq_true, if_false, if_true, upd_apply]) <;> grind
      case gone => have := h.gone; (try simp only [Sp.step, Sp.out, hd, Bool.false_eq_true, if_false, if_true, upd_apply]) <;> grind
      case stuck => have := h.stuck; (try simp only [Sp.step, Sp.out, hd, Bool.false_eq_true, if_false, if_true, upd_apply]) <;> grind
      case unrecv => have := h.unrecv; (try simp only [Sp.step, Sp.out, hd, Bool.false_eq_true, if_false, if_true, upd_apply]) <;> grind
      case outs => (try simp only [Sp.step, Sp.out, hd, Bool.false_eq_true, if_false, if_true, upd_apply]) <;> (exact fun _ => by have h1 := h.outs; simp_all [Sp.step, Sp.out, pend, optVal, optErr, ofBody, List.filter_cons])
      case pre => have h1 := h.outs; have h2 := h.pre; have := h.exc; (try simp only [Sp.step, Sp.out, hd, Bool.false_eq_true, if_false, if_true, upd_apply]) <;> grind
      case excBody => have := h.excBody; (try simp only [Sp.step, Sp.out, hd, Bool.false_eq_true, if_false, if_true, upd_apply]) <;> grind
      case buf => have := h.buf; (try simp only [Sp.step, Sp.out, hd, Bool.false_eq_true, if_false, if_true, upd_apply]) <;> grind
      case exc => have := h.exc; (try simp only [Sp.step, Sp.out, hd, Bool.false_eq_true, if_false, if_true, upd_apply]) <;> grind
      case doneA => have := h.doneA; (try simp only [Sp.step, Sp.out, hd, Bool.false_eq_true, if_false, if_true, upd_apply]) <;> grind
      case parkA => have := h.parkA; have := h.gone; (try simp only [Sp.step, Sp.out, hd, Bool.false_eq_true, if_false, if_true, upd_apply]) <;> grind
      case eagerR => have := h.eagerR; (try simp only [Sp.step, Sp.out, hd, Bool.false_eq_true, if_false, if_true, upd_apply]) <;> grind
      case eagerP => have := h.eagerP; have := h.eagerR; (try simp only [Sp.step, Sp.out, hd, Bool.false_eq_true, if_false, if_true, upd_apply]) <;> grind
      case eagerQ => have := h.eagerQ; (try simp only [Sp.step, Sp.out, hd, Bool.false_eq_true, if_false, if_true, upd_apply]) <;> grind
      case lazyR => have := h.lazyR; (try simp only [Sp.step, Sp.out, hd, Bool.false_eq_true, if_false, if_true, upd_apply]) <;> grind
      case eagerD => have := h.eagerD; have := h.eagerR; (try simp only [Sp.step, Sp.out, hd, Bool.false_eq_true, if_false, if_true, upd_apply]) <;> grind
      case awaited => have := h.awaited; (try simp only [Sp.step, Sp.out, hd, Bool.false_eq_true, if_false, if_true, upd_apply]) <;> grind
      case waitsN => have := h.waitsN; have := h.unrecv; have := h.parkA; (try simp only [Sp.step, Sp.out, hd, Bool.false_eq_true, if_false, if_true, upd_apply]) <;> grind
      case pending => have := h.pending; (try simp only [Sp.step, Sp.out, hd, Bool.false_eq_true, if_false, if_true, upd_apply]) <;> grind
      case log => have := h.log; (try simp only [Sp.step, Sp.out, hd, Bool.false_eq_true, if_false, if_true, upd_apply]) <;> grind
      case rv => have := h.rv; have := h.gone; (try simp only [Sp.step, Sp.out, hd, Bool.false_eq_true, if_false, if_true, upd_apply]) <;> grind
      case once => have := h.once; (try simp only [Sp.step, Sp.out, hd, Bool.false_eq_true, if_false, if_true, upd_apply]) <;> grind
      case killed => have := h.killed; (try simp only [Sp.step, Sp.out, hd, Bool.false_eq_true, if_false, if_true, upd_apply]) <;> grind
      case sub => have h1 := h.sub; (try simp only [Sp.step, Sp.out, hd, Bool.false_eq_true, if_false, if_true, upd_apply]) <;> grind
      case eqs => have h1 := h.eqs; have h2 := h.ended; (try simp only [Sp.step, Sp.out, hd, Bool.false_eq_true, if_false, if_true, upd_apply]) <;> grind
      case eqPre => have h1 := h.eqPre; have h2 := h.eqs; have h3 := h.ended; have h4 := h.gone; (try simp only [Sp.step, Sp.out, hd, Bool.false_eq_true, if_false, if_true, upd_apply]) <;> grind
      case points => have := h.points; (try simp only [Sp.step, Sp.out, hd, Bool.false_eq_true, if_false, if_true, upd_apply]) <;> grind

end Cobalt.Gen
