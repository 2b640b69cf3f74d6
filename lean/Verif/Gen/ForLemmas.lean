import Verif.Gen.ForModel
import Verif.Gen.Run
/-! The invariant of a loop over a generator. -/
namespace Cobalt.Gen.For

open Prom (upd upd_apply)

/-- The error that left the loop. -/
@[grind] def Phase.err : Phase → List Got
  | .thrown e => [.err e]
  | _ => []

/-- `i`: the loop was interrupted. -/
structure LI (i : Bool) (p : Sp) (l : St) : Prop where
  inv : ∃ u, Inv false { p with pushes := u } l.g
  lazyP : l.g.lazy = true → l.g.pushed = none
  runR : l.g.recv = true → l.g.phase = .running → l.g.result = none
  buf : l.g.buffer = none
  owe : ∀ a w, l.g.awaited = some a → l.g.aw a = some w → l.g.lazy = true → w.toPush = false
  head : l.phase = .head → l.g.awaited = none ∧ (l.g.lazy = true → l.g.phase ≠ .running ∧ l.g.result = none)
  waiting : ∀ a, l.phase = .waiting a → l.g.awaited = some a
  over : (∀ a, l.phase ≠ .waiting a) → l.g.awaited = none
  recv : (l.phase = .head ∨ ∃ a, l.phase = .waiting a) → l.g.recv = true
  fresh : ∀ a, l.next ≤ a → l.g.aw a = none
  log : l.g.log.reverse.map Prod.snd = l.seen.map .val ++ l.phase.err
  finished : l.phase = .finished → p.ended = true ∧ p.outs = l.seen.map .val ∧ l.g.phase = .gone
  thrown : ∀ e, l.phase = .thrown e → e = .detached ∧ i = true ∨
    p.ended = true ∧ p.outs = l.seen.map .val ++ [.err e] ∧ l.g.phase = .gone
  destroyed : l.phase = .destroyed →
    p.ended = true ∧ p.outs = l.seen.map .val ++ [.err .unexpected] ∧ l.g.phase = .gone

theorem LI.init (v : Bool) : LI false {} { g := { void := v } } := by
  constructor <;> simp [Phase.err]
  exact ⟨[], Inv.init false v⟩

variable {i : Bool} {p : Sp} {l : St}

/-- The coroutine of the generator did something and nobody was resumed. -/
theorem LI.quiet (h : LI i p l) {p' : Sp} {g' : Gen.St} (hi' : ∃ u, Inv false { p' with pushes := u } g')
    (ha : g'.awaited = l.g.awaited) (hw : g'.aw = l.g.aw) (hlog : g'.log = l.g.log) (hk : g'.killed = l.g.killed)
    (hr : g'.recv = l.g.recv)
    (hlp : g'.lazy = true → g'.pushed = none) (hrr : g'.recv = true → g'.phase = .running → g'.result = none)
    (hb : g'.buffer = none) (how : ∀ a w, g'.awaited = some a → g'.aw a = some w → g'.lazy = true → w.toPush = false)
    (hh : l.phase = .head → g'.lazy = true → g'.phase ≠ .running ∧ g'.result = none)
    (hg : l.g.phase = .gone → p'.ended = p.ended ∧ p'.outs = p.outs ∧ g'.phase = .gone) :
    LI i p' { l with g := g' }.advance := by
  obtain ⟨u, hi⟩ := h.inv
  have key : ({ l with g := g' } : St).advance = { l with g := g' } := by
    unfold St.advance
    split
    · rename_i a hx
      have hx : l.phase = .waiting a := hx
      have hA := h.waiting a hx
      obtain ⟨h1, w, h2, h3, h4, -⟩ := hi.awaited a hA
      simp [hk, h1, hw, h2, h4]
    · rfl
  rw [key]
  refine ⟨hi', hlp, hrr, hb, how, fun hx => ⟨ha.trans (h.head hx).1, hh hx⟩, fun a hx => ha.trans (h.waiting a hx),
    fun hx => ha.trans (h.over hx), fun hx => hr.trans (h.recv hx), fun a hx => ?_, ?_, fun hx => ?_, fun e hx => ?_,
    fun hx => ?_⟩
  · rw [hw]; exact h.fresh a hx
  · rw [hlog]; exact h.log
  · obtain ⟨h1, h2, h3⟩ := h.finished hx
    obtain ⟨g1, g2, g3⟩ := hg h3
    exact ⟨g1.trans h1, g2.trans h2, g3⟩
  · rcases h.thrown e hx with h0 | ⟨h1, h2, h3⟩
    · exact .inl h0
    · obtain ⟨g1, g2, g3⟩ := hg h3
      exact .inr ⟨g1.trans h1, g2.trans h2, g3⟩
  · obtain ⟨h1, h2, h3⟩ := h.destroyed hx
    obtain ⟨g1, g2, g3⟩ := hg h3
    exact ⟨g1.trans h1, g2.trans h2, g3⟩

/-- The await of the loop has ended with a value. -/
theorem LI.value (h : LI i p l) {p' : Sp} {g' : Gen.St} {a v : Nat} (hwt : l.phase = .waiting a)
    (hi' : ∃ u, Inv false { p' with pushes := u } g')
    (ha : g'.awaited = none) (hw : ∃ w, g'.aw = upd l.g.aw a (some w) ∧ w.got = some (.val v))
    (hlog : g'.log = (a, .val v) :: l.g.log) (hk : g'.killed = l.g.killed) (hr : g'.recv = l.g.recv)
    (hlp : g'.lazy = true → g'.pushed = none) (hrr : g'.phase ≠ .running) (hre : g'.result = none) (hb : g'.buffer = none) :
    LI i p' { l with g := g' }.advance := by
  obtain ⟨u, hi⟩ := h.inv
  obtain ⟨w, hw, hwg⟩ := hw
  have hA := h.waiting a hwt
  obtain ⟨h1, w', h2, h3, h4, -⟩ := hi.awaited a hA
  have key : ({ l with g := g' } : St).advance = { l with g := g', phase := .head, seen := l.seen ++ [v] } := by
    unfold St.advance
    simp [hwt, hk, h1, hw, hwg]
  rw [key]
  refine ⟨hi', hlp, fun _ hx => absurd hx hrr, hb, fun a w hx => ?_, fun _ => ⟨ha, fun _ => ⟨hrr, hre⟩⟩, fun a hx => ?_,
    fun _ => ha, fun _ => hr.trans (h.recv (.inr ⟨a, hwt⟩)), fun b hx => ?_, ?_, fun hx => ?_, fun e hx => ?_,
    fun hx => ?_⟩
  · rw [ha] at hx; simp at hx
  · simp at hx
  · dsimp only at hx ⊢
    rw [hw]
    have : b ≠ a := by rintro rfl; rw [h.fresh b hx] at h2; simp at h2
    simpa [this] using h.fresh b hx
  · have := h.log
    simp [hlog, Phase.err, hwt] at this ⊢
    exact this
  all_goals simp at hx

/-- The await of the loop has ended with an error. -/
theorem LI.error (h : LI i p l) {i' : Bool} {p' : Sp} {g' : Gen.St} {a : Nat} {e : Err} (hwt : l.phase = .waiting a)
    (hi' : ∃ u, Inv false { p' with pushes := u } g')
    (ha : g'.awaited = none) (hw : ∃ w, g'.aw = upd l.g.aw a (some w) ∧ w.got = some (.err e))
    (hlog : g'.log = (a, .err e) :: l.g.log) (hk : g'.killed = l.g.killed)
    (hlp : g'.lazy = true → g'.pushed = none) (hrr : g'.recv = true → g'.phase = .running → g'.result = none)
    (hb : g'.buffer = none)
    (he : e = .detached ∧ i' = true ∨ p'.ended = true ∧ p'.outs = l.seen.map .val ++ [.err e] ∧ g'.phase = .gone) :
    LI i' p' { l with g := g' }.advance := by
  obtain ⟨u, hi⟩ := h.inv
  obtain ⟨w, hw, hwg⟩ := hw
  have hA := h.waiting a hwt
  obtain ⟨h1, w', h2, h3, h4, -⟩ := hi.awaited a hA
  have key : ({ l with g := g' } : St).advance = { l with g := g', phase := .thrown e } := by
    unfold St.advance
    simp [hwt, hk, h1, hw, hwg]
  rw [key]
  refine ⟨hi', hlp, hrr, hb, fun a w hx => ?_, fun hx => ?_, fun a hx => ?_,
    fun _ => ha, fun hx => ?_, fun b hx => ?_, ?_, fun hx => ?_, fun e' hx => ?_,
    fun hx => ?_⟩
  · rw [ha] at hx; simp at hx
  · simp at hx
  · simp at hx
  · simp at hx
  · dsimp only at hx ⊢
    rw [hw]
    have : b ≠ a := by rintro rfl; rw [h.fresh b hx] at h2; simp at h2
    simpa [this] using h.fresh b hx
  · have := h.log
    simp [hlog, Phase.err, hwt] at this ⊢
    exact this
  · simp at hx
  · simp only [Phase.thrown.injEq] at hx
    subst hx
    exact he
  · simp at hx

theorem LI.outs (h : LI i p l) (hr : l.g.recv = true) (hn : l.g.result = none) (he : l.g.exc = none)
    (hp : l.phase.err = []) : p.outs = l.seen.map .val := by
  obtain ⟨u, hi⟩ := h.inv
  have := hi.outs hr
  rw [h.log, hp] at this
  simp only [pend, hn, he, h.buf, optVal, optErr, List.append_nil] at this
  rw [this]
  induction l.seen with
  | nil => rfl
  | cons x xs ih => simpa [ofBody] using ih

/-- What is known of a generator whose body runs. -/
theorem LI.running (h : LI i p l) (hr : l.g.recv = true) (hph : l.g.phase = .running) :
    l.g.ub = false ∧ l.g.result = none ∧ l.g.buffer = none ∧ l.g.done = false ∧ l.g.exc = none ∧ l.g.pushed = none ∧
    p.ended = false ∧ p.dropped = false := by
  obtain ⟨u, hi⟩ := h.inv
  have hdone : l.g.done = false := by
    have := hi.gone hr
    rw [hph] at this
    simpa using this
  refine ⟨hi.ub, h.runR hr hph, h.buf, hdone, ?_, ?_, ?_, ?_⟩
  · cases hx : l.g.exc with
    | none => rfl
    | some e => have := (hi.exc e hx).2; simp_all
  · cases hl : l.g.lazy with
    | true => exact h.lazyP hl
    | false => exact (hi.eagerR hr hl hph).2
  · have := hi.ended hr
    rw [hdone] at this
    exact this.symm
  · have := hi.dropped
    rw [hr] at this
    exact this

/-- After the generator is gone. -/
theorem LI.orphan (h : LI i p l) {e : Gen.Ev} (hr : l.g.recv = false) (hc : l.g.can e = true)
    (hi' : ∃ u, Inv false { p.step e with pushes := u } (l.g.step e)) :
    LI i (p.step e) { l with g := l.g.step e }.advance := by
  obtain ⟨u, hi⟩ := h.inv
  have hub := hi.ub
  have hd : p.dropped = true := by have := hi.dropped; rw [hr] at this; exact this
  have hA := (hi.unrecv hr).2
  have hl := h.lazyP
  have hb := h.buf
  have hh : l.phase ≠ .head := fun hx => by have := h.recv (.inl hx); simp_all
  have hex : ∃ ph, l.g.step e = { l.g with phase := ph } := by
    unfold Gen.St.step
    rw [if_neg (by simp [hub, hc])]
    cases e <;> simp only [Gen.St.can, hr, Bool.false_and, Bool.false_eq_true] at hc <;>
      simp [hr, Gen.St.suspend, Gen.St.kill] <;> exact ⟨_, rfl⟩
  obtain ⟨ph, hex⟩ := hex
  refine h.quiet hi' ?_ ?_ ?_ ?_ ?_ ?_ ?_ ?_ ?_ (fun hx => absurd hx hh) (fun hg => ?_)
  all_goals try rw [hex]
  · exact hl
  · simp [hr]
  · exact hb
  · exact h.owe
  · cases e <;> simp [Gen.St.can, hr, hg] at hc

theorem LI.who (h : LI i p l) {a : Nat} (ha : l.g.awaited = some a) : l.phase = .waiting a := by
  cases hx : l.phase with
  | waiting b => have := h.waiting b hx; simp_all
  | _ => have := h.over (by simp [hx]); simp_all

theorem LI.yield (h : LI i p l) {v : Nat} (hc : l.g.can (.yield v) = true) :
    LI i (p.step (.yield v)) { l with g := l.g.step (.yield v) }.advance := by
  obtain ⟨u, hi⟩ := h.inv
  have hi' := hi.step (e := .yield v) hc (by trivial) (by simp)
  have hp : Sp.step { p with pushes := u } (.yield v) = { p.step (.yield v) with pushes := u } := by
    simp only [Sp.step, Sp.out]; split <;> rfl
  rw [hp] at hi'
  have hph : l.g.phase = .running := by simpa [Gen.St.can] using hc
  cases hr : l.g.recv with
  | false => exact h.orphan hr hc ⟨u, hi'⟩
  | true =>
    obtain ⟨hub, hres, hbuf, hdone, hexc, hpu, hend, hdrop⟩ := h.running hr hph
    cases ha : l.g.awaited with
    | none =>
      have e1 : l.g.step (.yield v) = { l.g with result := some v, phase := .parked } := by
        unfold Gen.St.step
        rw [if_neg (by simp [hub, hc])]
        simp [hr, Gen.St.put, hres, hub, Gen.St.suspend, hpu, Gen.St.wake, ha]
      rw [e1] at hi' ⊢
      refine h.quiet ⟨u, hi'⟩ rfl rfl rfl rfl rfl h.lazyP ?_ h.buf h.owe (fun hx hl => ?_) ?_
      · simp
      · exact absurd hph ((h.head hx).2 hl).1
      · simp [hph]
    | some a =>
      obtain ⟨hk, w, hw, hwe, hwg, -, hwl⟩ := hi.awaited a ha
      have hww := h.owe a w ha hw
      have hwt := h.who ha
      have e1 : l.g.step (.yield v) = { l.g with
          phase := if l.g.lazy then .parked else .posted, awaited := none
          pushed := if w.toPush then some w.push else none
          aw := upd l.g.aw a (some { w with toPush := false, got := some (.val v) })
          log := (a, .val v) :: l.g.log } := by
        unfold Gen.St.step
        rw [if_neg (by simp [hub, hc])]
        cases hl : l.g.lazy <;> cases ht : w.toPush <;>
          simp [hr, Gen.St.put, hres, hub, Gen.St.suspend, hpu, Gen.St.wake, ha, Gen.St.resumeAw, hw, hwe, hexc, ht,
            Gen.St.takeResult, Gen.St.give, hl, hbuf]
        all_goals simp_all
      rw [e1] at hi' ⊢
      refine h.value hwt ⟨u, hi'⟩ rfl ⟨_, rfl, rfl⟩ rfl rfl rfl ?_ ?_ hres h.buf
      · intro hl; simp [hww hl]
      · cases l.g.lazy <;> simp

theorem LI.ret (h : LI i p l) {v : Nat} (hc : l.g.can (.ret v) = true) :
    LI i (p.step (.ret v)) { l with g := l.g.step (.ret v) }.advance := by
  obtain ⟨u, hi⟩ := h.inv
  have hi' := hi.step (e := .ret v) hc (by trivial) (by simp)
  have hp : Sp.step { p with pushes := u } (.ret v) = { p.step (.ret v) with pushes := u } := by
    simp only [Sp.step, Sp.out]; split <;> rfl
  rw [hp] at hi'
  have hph : l.g.phase = .running := by simpa [Gen.St.can] using hc
  cases hr : l.g.recv with
  | false => exact h.orphan hr hc ⟨u, hi'⟩
  | true =>
    obtain ⟨hub, hres, hbuf, hdone, hexc, hpu, hend, hdrop⟩ := h.running hr hph
    cases ha : l.g.awaited with
    | none =>
      have e1 : l.g.step (.ret v) = { l.g with result := some v, phase := .gone, done := true } := by
        unfold Gen.St.step
        rw [if_neg (by simp [hub, hc])]
        simp [hr, Gen.St.put, hres, hub, Gen.St.finish, Gen.St.wake, ha]
      rw [e1] at hi' ⊢
      refine h.quiet ⟨u, hi'⟩ rfl rfl rfl rfl rfl h.lazyP ?_ h.buf h.owe (fun hx hl => ?_) ?_
      · simp
      · exact absurd hph ((h.head hx).2 hl).1
      · simp [hph]
    | some a =>
      obtain ⟨hk, w, hw, hwe, hwg, -, hwl⟩ := hi.awaited a ha
      have hww := h.owe a w ha hw
      have hwt := h.who ha
      have e1 : l.g.step (.ret v) = { l.g with
          phase := .gone, done := true, awaited := none
          pushed := if w.toPush then some w.push else none
          aw := upd l.g.aw a (some { w with toPush := false, got := some (.val v) })
          log := (a, .val v) :: l.g.log } := by
        unfold Gen.St.step
        rw [if_neg (by simp [hub, hc])]
        cases ht : w.toPush <;>
          simp [hr, Gen.St.put, hres, hub, Gen.St.finish, hpu, Gen.St.wake, ha, Gen.St.resumeAw, hw, hwe, hexc, ht,
            Gen.St.takeResult, Gen.St.give, hbuf]
        all_goals simp_all
      rw [e1] at hi' ⊢
      refine h.value hwt ⟨u, hi'⟩ rfl ⟨_, rfl, rfl⟩ rfl rfl rfl ?_ ?_ hres h.buf
      · intro hl; simp [hww hl]
      · simp

theorem LI.throw (h : LI i p l) {x : Nat} (hc : l.g.can (.throw x) = true) :
    LI i (p.step (.throw x)) { l with g := l.g.step (.throw x) }.advance := by
  obtain ⟨u, hi⟩ := h.inv
  have hph : l.g.phase = .running := by simpa [Gen.St.can] using hc
  have hi' := hi.step (e := .throw x) hc (fun hr => (h.running hr hph).2.1) (by simp)
  have hp : Sp.step { p with pushes := u } (.throw x) = { p.step (.throw x) with pushes := u } := by
    simp only [Sp.step, Sp.out]; split <;> rfl
  rw [hp] at hi'
  cases hr : l.g.recv with
  | false => exact h.orphan hr hc ⟨u, hi'⟩
  | true =>
    obtain ⟨hub, hres, hbuf, hdone, hexc, hpu, hend, hdrop⟩ := h.running hr hph
    cases ha : l.g.awaited with
    | none =>
      have e1 : l.g.step (.throw x) = { l.g with exc := some (.user x), phase := .gone, done := true } := by
        unfold Gen.St.step
        rw [if_neg (by simp [hub, hc])]
        simp [hr, Gen.St.finish, Gen.St.wake, ha]
      rw [e1] at hi' ⊢
      refine h.quiet ⟨u, hi'⟩ rfl rfl rfl rfl rfl h.lazyP ?_ h.buf h.owe (fun hx hl => ?_) ?_
      · simp
      · exact absurd hph ((h.head hx).2 hl).1
      · simp [hph]
    | some a =>
      obtain ⟨hk, w, hw, hwe, hwg, -, hwl⟩ := hi.awaited a ha
      have hwt := h.who ha
      have e1 : l.g.step (.throw x) = { l.g with
          phase := .gone, done := true, awaited := none, exc := none
          aw := upd l.g.aw a (some { w with got := some (.err (.user x)) })
          log := (a, .err (.user x)) :: l.g.log } := by
        unfold Gen.St.step
        rw [if_neg (by simp [hub, hc])]
        simp [hr, hub, Gen.St.finish, Gen.St.wake, ha, Gen.St.resumeAw, hw, hwe, Gen.St.give]
      rw [e1] at hi' ⊢
      refine h.error hwt ⟨u, hi'⟩ rfl ⟨_, rfl, rfl⟩ rfl rfl h.lazyP ?_ h.buf (.inr ⟨rfl, ?_, rfl⟩)
      · simp
      · simp [Sp.step, Sp.out, hdrop, h.outs hr hres hexc (by simp [hwt, Phase.err])]

theorem LI.kill (h : LI i p l) (hc : l.g.can .kill = true) :
    LI i (p.step .kill) { l with g := l.g.step .kill }.advance := by
  obtain ⟨u, hi⟩ := h.inv
  have hph : l.g.phase = .running ∨ l.g.phase = .posted := by simpa [Gen.St.can] using hc
  have hres : l.g.recv = true → l.g.result = none := fun hr => by
    rcases hph with hph | hph
    · exact (h.running hr hph).2.1
    · exact (hi.eagerQ hr hph).2.2
  have hi' := hi.step (e := .kill) hc hres (by simp)
  have hp : Sp.step { p with pushes := u } .kill = { p.step .kill with pushes := u } := by
    simp only [Sp.step, Sp.out]; split <;> rfl
  rw [hp] at hi'
  cases hr : l.g.recv with
  | false => exact h.orphan hr hc ⟨u, hi'⟩
  | true =>
    have hres := hres hr
    have hng : l.g.phase ≠ .gone := by rcases hph with hph | hph <;> simp [hph]
    have hub := hi.ub
    have hdone : l.g.done = false := by
      have := hi.gone hr
      simpa [hng] using this
    have hexc : l.g.exc = none := by
      cases hx : l.g.exc with
      | none => rfl
      | some e => have := (hi.exc e hx).2; simp_all
    have hdrop : p.dropped = false := by have := hi.dropped; rw [hr] at this; exact this
    have e1 : l.g.step .kill = { l.g with
        phase := .gone, done := true, awaited := none, exc := some .unexpected, killed := l.g.dead } := by
      unfold Gen.St.step
      rw [if_neg (by simp [hub, hc])]
      simp [hr, Gen.St.kill, hdone, hexc]
    rw [e1] at hi' ⊢
    cases ha : l.g.awaited with
    | none =>
      refine h.quiet ⟨u, hi'⟩ ?_ rfl rfl ?_ rfl h.lazyP ?_ h.buf ?_ ?_ ?_ <;> simp [hng, ha, Gen.St.dead, hres]
    | some a =>
      obtain ⟨hk, w, hw, hwe, hwg, -, hwl⟩ := hi.awaited a ha
      have hwt := h.who ha
      have hout := h.outs hr hres hexc (by simp [hwt, Phase.err])
      have e2 : ({ l with g := { l.g with
          phase := .gone, done := true, awaited := none, exc := some .unexpected, killed := l.g.dead } } : St).advance =
          { l with phase := .destroyed, g := { l.g with
            phase := .gone, done := true, awaited := none, exc := some .unexpected, killed := l.g.dead } } := by
        simp [St.advance, hwt, Gen.St.dead, ha]
      rw [e2]
      have hlog := h.log
      refine ⟨⟨u, hi'⟩, h.lazyP, ?_, h.buf, ?_, ?_, ?_, ?_, ?_, h.fresh, ?_, ?_, ?_, ?_⟩
      all_goals simp [Phase.err, hwt] at hlog ⊢
      · exact hlog
      · simp [Sp.step, Sp.out, hdrop, hout]

theorem LI.run (h : LI i p l) (hc : l.g.can .run = true) :
    LI i (p.step .run) { l with g := l.g.step .run }.advance := by
  obtain ⟨u, hi⟩ := h.inv
  have hph : l.g.phase = .posted := by simpa [Gen.St.can] using hc
  have hi' := hi.step (e := .run) hc trivial (by simp)
  change Inv false { p.step .run with pushes := u } _ at hi'
  cases hr : l.g.recv with
  | false => exact h.orphan hr hc ⟨u, hi'⟩
  | true =>
    obtain ⟨hl, hpu, hres⟩ := hi.eagerQ hr hph
    have hub := hi.ub
    cases hx : l.g.pushed with
    | none => simp [hx] at hpu
    | some y =>
      have e1 : l.g.step .run = { l.g with phase := .running, pushed := none, received := y :: l.g.received } := by
        unfold Gen.St.step
        rw [if_neg (by simp [hub, hc])]
        simp [hr, Gen.St.bodyResume, hx]
      rw [e1] at hi' ⊢
      refine h.quiet ⟨u, hi'⟩ rfl rfl rfl rfl rfl ?_ ?_ h.buf h.owe ?_ ?_ <;> simp [hph, hl, hres]

theorem LI.initial (h : LI i p l) (hc : l.g.can .initial = true) (ha : l.g.awaited = none) :
    LI i (p.step .initial) { l with g := l.g.step .initial }.advance := by
  obtain ⟨u, hi⟩ := h.inv
  have hph : l.g.phase = .running := by simpa [Gen.St.can] using hc
  have hi' := hi.step (e := .initial) hc ha (by simp)
  change Inv false { p.step .initial with pushes := u } _ at hi'
  cases hr : l.g.recv with
  | false => exact h.orphan hr hc ⟨u, hi'⟩
  | true =>
    obtain ⟨hub, hres, hbuf, hdone, hexc, hpu, hend, hdrop⟩ := h.running hr hph
    have e1 : l.g.step .initial = { l.g with lazy := true, phase := .parked } := by
      unfold Gen.St.step
      rw [if_neg (by simp [hub, hc])]
      simp [hr, Gen.St.suspend, hpu, Gen.St.wake, ha]
    rw [e1] at hi' ⊢
    refine h.quiet ⟨u, hi'⟩ rfl rfl rfl rfl rfl ?_ ?_ h.buf ?_ ?_ ?_ <;> simp [hph, hpu, ha, hres]

theorem LI.interrupt (h : LI i p l) {a : Nat} (hwt : l.phase = .waiting a) :
    LI true (p.step (.interrupt a)) { l with g := l.g.step (.interrupt a) }.advance := by
  obtain ⟨u, hi⟩ := h.inv
  have ha := h.waiting a hwt
  have hr := h.recv (.inr ⟨a, hwt⟩)
  obtain ⟨hk, w, hw, hwe, hwg, -, hwl⟩ := hi.awaited a ha
  have hub := hi.ub
  have hc : l.g.can (.interrupt a) = true := by simp [Gen.St.can, hr, hw, hk]
  have hi' := hi.step (e := .interrupt a) hc ⟨ha, fun hl => .inr (h.lazyP hl)⟩ (by simp)
  change Inv false { p.step (.interrupt a) with pushes := u } _ at hi'
  have e1 : l.g.step (.interrupt a) = { l.g with
      awaited := none, aw := upd l.g.aw a (some { w with ex := some .detached, got := some (.err .detached) })
      log := (a, .err .detached) :: l.g.log } := by
    unfold Gen.St.step
    rw [if_neg (by simp [hub, hc])]
    simp only [Gen.St.interrupt, hw, Gen.St.wake, ha, Gen.St.resumeAw, Gen.St.give, upd_apply, if_true]
    congr 1
    funext j
    simp only [upd_apply]
    split <;> rfl
  rw [e1] at hi' ⊢
  exact h.error hwt ⟨u, hi'⟩ rfl ⟨_, rfl, rfl⟩ rfl rfl h.lazyP h.runR h.buf (.inl ⟨rfl, rfl⟩)

theorem LI.drop (h : LI i p l) (hph : l.phase ≠ .head) (hw : ∀ a, l.phase ≠ .waiting a) (hc : l.g.can .drop = true) :
    LI i (p.step .drop) { l with g := l.g.step .drop }.advance := by
  obtain ⟨u, hi⟩ := h.inv
  have hi' := hi.step (e := .drop) hc trivial (by simp)
  change Inv false { p.step .drop with pushes := u } _ at hi'
  have hub := hi.ub
  have ha := h.over hw
  have e1 : l.g.step .drop = { l.g with recv := false, phase := if l.g.phase = .parked then .gone else l.g.phase } := by
    unfold Gen.St.step
    rw [if_neg (by simp [hub, hc])]
    simp [Gen.St.drop, Gen.St.dead, ha]
  rw [e1] at hi' ⊢
  have e2 : ({ l with g := { l.g with recv := false, phase := if l.g.phase = .parked then .gone else l.g.phase } } : St).advance =
      { l with g := { l.g with recv := false, phase := if l.g.phase = .parked then .gone else l.g.phase } } := by
    unfold St.advance
    split
    · rename_i a hx; exact absurd hx (hw a)
    · rfl
  rw [e2]
  refine ⟨⟨u, hi'⟩, h.lazyP, by simp, h.buf, h.owe, fun hx => absurd hx hph, fun a hx => absurd hx (hw a), fun _ => ha,
    ?_, h.fresh, h.log, fun hx => ?_, fun e hx => ?_, fun hx => ?_⟩
  · rintro (hx | ⟨a, hx⟩)
    · exact absurd hx hph
    · exact absurd hx (hw a)
  · obtain ⟨h1, h2, h3⟩ := h.finished hx
    exact ⟨h1, h2, by simp [h3]⟩
  · rcases h.thrown e hx with h0 | ⟨h1, h2, h3⟩
    · exact .inl h0
    · exact .inr ⟨h1, h2, by simp [h3]⟩
  · obtain ⟨h1, h2, h3⟩ := h.destroyed hx
    exact ⟨h1, h2, by simp [h3]⟩

theorem filter_vals (l : List Nat) : (l.map Got.val).filter ofBody = l.map .val := by
  induction l with
  | nil => rfl
  | cons x xs ih => simpa [ofBody] using ih

theorem LI.turn (h : LI i p l) (hph : l.phase = .head) : LI i p l.turn := by
  obtain ⟨u, hi⟩ := h.inv
  have hr := h.recv (.inl hph)
  obtain ⟨ha, hlz⟩ := h.head hph
  have hf := h.fresh l.next (Nat.le_refl _)
  have hub := hi.ub
  have hc : l.g.can (.await l.next l.next) = true := by simp [Gen.St.can, hr, hf]
  have hlog := h.log
  simp only [hph, Phase.err, List.append_nil] at hlog
  unfold St.turn
  split
  · rename_i hb
    have hi' := hi.step (e := .await l.next l.next) hc
      (fun hl hp => absurd (h.lazyP hl) hp) (by simp)
    have hst : l.g.step (.await l.next l.next) = l.g.await l.next l.next := by
      unfold Gen.St.step
      rw [if_neg (by simp [hub, hc])]
    have hfresh : ∀ w b, l.next + 1 ≤ b → upd l.g.aw l.next w b = none := fun w b hb => by
      have : b ≠ l.next := by omega
      simpa [this] using h.fresh b (by omega)
    have hnk : l.next ∉ l.g.killed := fun hx => by
      obtain ⟨w, h1, -⟩ := hi.killed _ hx
      rw [hf] at h1; simp at h1
    cases hx : l.g.exc with
    | some e =>
      obtain ⟨hres, hdone⟩ := hi.exc e hx
      have e1 : l.g.step (.await l.next l.next) = { l.g with
          exc := none, aw := upd l.g.aw l.next (some { push := l.next, got := some (.err e) })
          log := (l.next, .err e) :: l.g.log } := by
        rw [hst]
        simp only [Gen.St.await, Gen.St.ready, hx, Option.isSome_some, Bool.true_or, if_true, Gen.St.resumeAw, upd_apply,
          Gen.St.give]
        congr 1
        funext j
        simp only [upd_apply]
        split <;> rfl
      rw [e1] at hi' ⊢
      have e2 : ({ l with g := { l.g with
          exc := none, aw := upd l.g.aw l.next (some { push := l.next, got := some (.err e) })
          log := (l.next, .err e) :: l.g.log }, phase := .waiting l.next, next := l.next + 1 } : St).advance =
        { l with g := { l.g with
          exc := none, aw := upd l.g.aw l.next (some { push := l.next, got := some (.err e) })
          log := (l.next, .err e) :: l.g.log }, phase := .thrown e, next := l.next + 1 } := by
        simp [St.advance, hnk]
      rw [e2]
      have hg := (hi.gone hr).1 hdone
      refine ⟨⟨_, hi'⟩, h.lazyP, h.runR, h.buf, ?_, ?_, ?_, fun _ => ha, ?_, hfresh _, ?_, ?_, ?_, ?_⟩
      · intro b w hx; exact absurd (hx.symm.trans ha) (by simp)
      · simp
      · simp
      · simp
      · simpa [Phase.err] using hlog
      · simp
      · rintro e' he
        simp only [Phase.thrown.injEq] at he
        subst he
        refine .inr ⟨?_, ?_, hg⟩
        · rw [← hi.ended hr, hdone]
        · have := hi.outs hr
          rw [hlog, filter_vals] at this
          simpa [pend, hres, h.buf, hx, optVal, optErr] using this
      · simp
    | none =>
      cases hres : l.g.result with
      | some v =>
        have hl : l.g.lazy = false := by
          cases hl : l.g.lazy with
          | false => rfl
          | true => have := (hlz hl).2; simp_all
        have hpn : l.g.pushed = none := by
          have := hi.eagerR hr hl; have := hi.eagerP hl; have := hi.eagerQ hr; have := hi.eagerD hr hl
          have := hi.stuck hr
          cases hph : l.g.phase <;> simp_all
        have e1 : l.g.step (.await l.next l.next) = { l.g with
            phase := if l.g.phase = .parked then .posted else l.g.phase
            result := none, buffer := none, pushed := some l.next
            aw := upd l.g.aw l.next (some { push := l.next, toPush := false, got := some (.val v) })
            log := (l.next, .val v) :: l.g.log } := by
          rw [hst]
          simp only [Gen.St.await, Gen.St.ready, hx, hres, Option.isSome_some, Bool.true_or, Bool.or_true, if_true,
            Gen.St.resumeAw, upd_apply, hpn, ne_eq, not_true_eq_false, if_false, Gen.St.takeResult, Gen.St.give, hl,
            and_true, h.buf]
          congr 1
          funext j
          simp only [upd_apply]
          split <;> rfl
        rw [e1] at hi' ⊢
        have e2 : ({ l with g := { l.g with
            phase := if l.g.phase = .parked then .posted else l.g.phase
            result := none, buffer := none, pushed := some l.next
            aw := upd l.g.aw l.next (some { push := l.next, toPush := false, got := some (.val v) })
            log := (l.next, .val v) :: l.g.log }, phase := .waiting l.next, next := l.next + 1 } : St).advance =
          { l with g := { l.g with
            phase := if l.g.phase = .parked then .posted else l.g.phase
            result := none, buffer := none, pushed := some l.next
            aw := upd l.g.aw l.next (some { push := l.next, toPush := false, got := some (.val v) })
            log := (l.next, .val v) :: l.g.log }, next := l.next + 1, seen := l.seen ++ [v] } := by
          simp [St.advance, hnk, hph]
        rw [e2]
        refine ⟨⟨_, hi'⟩, ?_, ?_, rfl, ?_, ?_, ?_, fun _ => ha, fun _ => hr, hfresh _, ?_, ?_, ?_, ?_⟩
        · simp [hl]
        · simp
        · simp [hl]
        · simp [hl, ha]
        · simp [hph]
        · simpa [Phase.err, hph] using hlog
        all_goals simp [hph]
      | none =>
        have hdone : l.g.done = false := by
          simpa [Gen.St.toBool, hx, hres] using hb
        have hnr : l.g.ready = false := by simp [Gen.St.ready, hx, hres, hdone]
        cases hl : l.g.lazy with
        | false =>
          have hnp : l.g.phase ≠ .parked := fun hp => (hi.eagerP hl hp).1 hres
          have e1 : l.g.step (.await l.next l.next) = { l.g with
              awaited := some l.next, aw := upd l.g.aw l.next (some { push := l.next }) } := by
            rw [hst]
            simp [Gen.St.await, Gen.St.ready, hx, hres, hdone, ha, hl, hnp]
          rw [e1] at hi' ⊢
          have e2 : ({ l with g := { l.g with
              awaited := some l.next, aw := upd l.g.aw l.next (some { push := l.next }) }, phase := .waiting l.next, next := l.next + 1 } : St).advance =
            { l with g := { l.g with
              awaited := some l.next, aw := upd l.g.aw l.next (some { push := l.next }) }, phase := .waiting l.next, next := l.next + 1 } := by
            simp [St.advance, hnk]
          rw [e2]
          refine ⟨⟨_, hi'⟩, h.lazyP, h.runR, h.buf, ?_, ?_, ?_, ?_, fun _ => hr, hfresh _, ?_, ?_, ?_, ?_⟩
          · simp [hl]
          · simp
          · simp
          · intro hx; exact absurd rfl (hx l.next)
          · simpa [Phase.err] using hlog
          all_goals simp
        | true =>
          have hpu := h.lazyP hl
          have hnr := (hlz hl).1
          have hpk : l.g.phase = .parked := by
            have h1 := hi.gone hr; have h2 := hi.eagerQ hr; have h3 := hi.stuck hr
            cases hph : l.g.phase <;> simp_all
          have e1 : l.g.step (.await l.next l.next) = { l.g with
              awaited := some l.next, phase := .running, received := l.next :: l.g.received
              aw := upd l.g.aw l.next (some { push := l.next, toPush := false }) } := by
            rw [hst]
            simp only [Gen.St.await, Gen.St.ready, hx, hres, hdone, ha, hl, hpk, hpu, Gen.St.bodyResume,
              Option.isSome_none, Bool.or_false, Bool.false_eq_true, if_false, ne_eq, not_true_eq_false, true_and, if_true]
            congr 1
            funext j
            simp only [upd_apply]
            split <;> rfl
          rw [e1] at hi' ⊢
          have e2 : ({ l with g := { l.g with
              awaited := some l.next, phase := .running, received := l.next :: l.g.received
              aw := upd l.g.aw l.next (some { push := l.next, toPush := false }) }, phase := .waiting l.next, next := l.next + 1 } : St).advance =
            { l with g := { l.g with
              awaited := some l.next, phase := .running, received := l.next :: l.g.received
              aw := upd l.g.aw l.next (some { push := l.next, toPush := false }) }, phase := .waiting l.next, next := l.next + 1 } := by
            simp [St.advance, hnk]
          rw [e2]
          refine ⟨⟨_, hi'⟩, h.lazyP, ?_, h.buf, ?_, ?_, ?_, ?_, fun _ => hr, hfresh _, ?_, ?_, ?_, ?_⟩
          · simp [hres]
          · intro b w h1 h2 _
            simp only [Option.some.injEq] at h1
            subst h1
            simp only [upd_apply, if_true, Option.some.injEq] at h2
            rw [← h2]
          · simp
          · simp
          · intro hx; exact absurd rfl (hx l.next)
          · simpa [Phase.err] using hlog
          all_goals simp
  · rename_i hb
    simp only [Gen.St.toBool, Bool.not_eq_true, Bool.or_eq_false_iff, Bool.not_eq_eq_eq_not, Bool.not_false,
      Option.isSome_eq_false_iff, Option.isNone_iff_eq_none] at hb
    obtain ⟨⟨hdone, hres⟩, hexc⟩ := hb
    refine ⟨⟨u, hi⟩, h.lazyP, h.runR, h.buf, h.owe, ?_, ?_, fun _ => ha, fun _ => hr, h.fresh, ?_, ?_, ?_, ?_⟩
    · simp
    · simp
    · simpa [Phase.err] using hlog
    · intro _
      exact ⟨by rw [← hi.ended hr, hdone], h.outs hr hres hexc (by simp [hph, Phase.err]), (hi.gone hr).1 hdone⟩
    all_goals simp

theorem LI.leave (h : LI i p l) (hph : l.phase = .head) : LI i p { l with phase := .broken } := by
  have hlog := h.log
  refine ⟨h.inv, h.lazyP, h.runR, h.buf, h.owe, ?_, ?_, fun _ => (h.head hph).1, ?_, h.fresh, ?_, ?_, ?_, ?_⟩
  all_goals simp [hph, Phase.err] at hlog ⊢
  exact hlog

/-- A turn when the body has ended. -/
theorem LI.turn_done (h : LI i p l) (hph : l.phase = .head) (hd : l.g.done = true) :
    l.turn.phase = .finished ∨ (∃ e, l.turn.phase = .thrown e) ∨
    l.turn.phase = .head ∧ l.turn.seen.length = l.seen.length + 1 := by
  obtain ⟨u, hi⟩ := h.inv
  have hr := h.recv (.inl hph)
  obtain ⟨ha, hlz⟩ := h.head hph
  have hf := h.fresh l.next (Nat.le_refl _)
  have hub := hi.ub
  have hc : l.g.can (.await l.next l.next) = true := by simp [Gen.St.can, hr, hf]
  have hnk : l.next ∉ l.g.killed := fun hx => by
    obtain ⟨w, h1, -⟩ := hi.killed _ hx
    rw [hf] at h1; simp at h1
  have hg := (hi.gone hr).1 hd
  unfold St.turn
  split
  · rename_i hb
    have hst : l.g.step (.await l.next l.next) = l.g.await l.next l.next := by
      unfold Gen.St.step
      rw [if_neg (by simp [hub, hc])]
    rw [hst]
    cases hx : l.g.exc with
    | some e =>
      right; left
      refine ⟨e, ?_⟩
      simp [Gen.St.await, Gen.St.ready, hx, Gen.St.resumeAw, Gen.St.give, St.advance, hnk]
    | none =>
      cases hres : l.g.result with
      | some v =>
        have hl : l.g.lazy = false := by
          cases hl : l.g.lazy with
          | false => rfl
          | true => have := (hlz hl).2; simp_all
        have hpn := hi.eagerD hr hl hg (by simp [hres])
        right; right
        simp [Gen.St.await, Gen.St.ready, hx, hres, Gen.St.resumeAw, hpn, Gen.St.takeResult, Gen.St.give, St.advance, hnk]
      | none => simp [Gen.St.toBool, hx, hres, hd] at hb
  · left; rfl

/-- The loop was interrupted. -/
def interrupted (es : List Ev) : Bool := es.any fun | .other (.interrupt _) => true | _ => false

theorem LI.step (h : LI i p l) {e : Ev} (hc : l.can e = true) (hk : e = .other .initial → l.g.awaited = none) :
    LI (i || interrupted [e]) (p.steps (others [e])) (l.step e) := by
  unfold St.step
  rw [if_neg (by simp [hc])]
  cases e with
  | turn => simpa [interrupted, others, Sp.steps] using h.turn (by simpa [St.can] using hc)
  | leave => simpa [interrupted, others, Sp.steps] using h.leave (by simpa [St.can] using hc)
  | other e =>
    cases e with
    | initial => simpa [interrupted, others, Sp.steps] using h.initial hc (hk rfl)
    | yield v => simpa [interrupted, others, Sp.steps] using h.yield hc
    | ret v => simpa [interrupted, others, Sp.steps] using h.ret hc
    | throw e => simpa [interrupted, others, Sp.steps] using h.throw hc
    | kill => simpa [interrupted, others, Sp.steps] using h.kill hc
    | run => simpa [interrupted, others, Sp.steps] using h.run hc
    | await a v => simp [St.can] at hc
    | get a => simp [St.can] at hc
    | interrupt a => simpa [interrupted, others, Sp.steps] using h.interrupt (by simpa [St.can] using hc)
    | drop =>
      simp only [St.can, Bool.and_eq_true] at hc
      have := h.drop (fun hx => by simp [hx] at hc) (fun a hx => by simp [hx] at hc) hc.2
      simpa [interrupted, others, Sp.steps] using this

theorem LI.steps (es : List Ev) : ∀ {i : Bool} {p : Sp} {l : St}, LI i p l → Legal l es → Calm l es →
    LI (i || interrupted es) (p.steps (others es)) (l.steps es) := by
  induction es with
  | nil => intro i p l h _ _; simpa [interrupted, others, Sp.steps, St.steps] using h
  | cons e es ih =>
    intro i p l h hl hk
    have := ih (h.step hl.1 hk.1) hl.2 hk.2
    have e1 : interrupted (e :: es) = (interrupted [e] || interrupted es) := by simp [interrupted]
    have e2 : others (e :: es) = others [e] ++ others es := by
      simp only [others]
      rw [← List.filterMap_append]
      rfl
    rw [e1, e2, ← Bool.or_assoc]
    simpa [Sp.steps, St.steps] using this

theorem LI.after {v : Bool} {es : List Ev} (hl : Legal { g := { void := v } } es) (hk : Calm { g := { void := v } } es) :
    LI (interrupted es) (spec (others es)) (St.run v es) := by
  have := LI.steps es (LI.init v) hl hk
  rw [Bool.false_or] at this
  exact this

/-- The body awaits `initial` while it is awaited. -/
theorem LI.rude (h : LI i p l) (hc : l.g.can .initial = true) (ha : l.g.awaited ≠ none) :
    (l.step (.other .initial)).phase = .thrown .returnedVoid := by
  obtain ⟨u, hi⟩ := h.inv
  have hph : l.g.phase = .running := by simpa [Gen.St.can] using hc
  cases hA : l.g.awaited with
  | none => exact absurd hA ha
  | some a =>
    obtain ⟨hk, w, hw, hwe, -⟩ := hi.awaited a hA
    have hwt := h.who hA
    have hr := h.recv (.inr ⟨a, hwt⟩)
    obtain ⟨hub, hres, hbuf, hdone, hexc, hpu, hend, hdrop⟩ := h.running hr hph
    unfold St.step
    rw [if_neg (by simp [St.can, hc])]
    simp only [Gen.St.step, hub, hc, Bool.not_true, Bool.or_false, Bool.false_eq_true, if_false, hr, if_true]
    simp [Gen.St.suspend, hr, hpu, Gen.St.wake, hA, Gen.St.resumeAw, hw, hwe, hexc, hres, Gen.St.give, St.advance, hwt, hk]

theorem thrown_step {l : St} {x : Err} (h : l.phase = .thrown x) (e : Ev) : (l.step e).phase = .thrown x := by
  unfold St.step
  split
  · exact h
  · rename_i hc
    cases e with
    | turn => simp [St.can, h] at hc
    | leave => simp [St.can, h] at hc
    | other e => simp [St.advance, h]

theorem thrown_steps (es : List Ev) : ∀ {l : St} {x : Err}, l.phase = .thrown x → (l.steps es).phase = .thrown x := by
  induction es with
  | nil => intro l x h; exact h
  | cons e es ih => intro l x h; exact ih (thrown_step h e)

/-- A history that is not calm. -/
theorem LI.rudely (es : List Ev) : ∀ {i : Bool} {p : Sp} {l : St}, LI i p l → Legal l es → ¬Calm l es →
    (l.steps es).phase = .thrown .returnedVoid := by
  induction es with
  | nil => intro i p l _ _ hk; exact absurd trivial hk
  | cons e es ih =>
    intro i p l h hl hk
    cases Classical.em (e = .other .initial → l.g.awaited = none) with
    | inl hx => exact ih (h.step hl.1 hx) hl.2 fun hc => hk ⟨hx, hc⟩
    | inr hx =>
      simp only [Classical.not_imp] at hx
      obtain ⟨rfl, ha⟩ := hx
      exact thrown_steps es (h.rude hl.1 ha)

theorem outs_body (es : List Gen.Ev) : ∀ {p : Sp}, (∀ g ∈ p.outs, ofBody g = true) → ∀ g ∈ (p.steps es).outs, ofBody g = true := by
  induction es with
  | nil => intro p h; exact h
  | cons e es ih =>
    intro p h
    refine ih ?_
    cases e <;> simp only [Sp.step, Sp.out] <;> try exact h
    all_goals
      split
      · exact h
      · intro g hg
        simp only [List.mem_append, List.mem_singleton] at hg
        rcases hg with hg | rfl
        · exact h g hg
        · rfl

end Cobalt.Gen.For
