import Verif.Gen.Run
import Verif.Again.Gen
/-! What eager generators hand over to races, in order. -/
namespace Cobalt.Again

open Comb (Cfg)

/-- What an event adds to what the coroutine of generator `i` gives. -/
def Ev.outOf (i : Nat) : Ev gen → Option Gen.Got
  | .act j (.yield v) | .act j (.ret v) => if j = i then some (.val v) else none
  | .act j (.throw e) => if j = i then some (.err (.user e)) else none
  | _ => none

/-- What the coroutine of generator `i` has given, in order. -/
def outs (i : Nat) (es : List (Ev gen)) : List Gen.Got := es.filterMap (Ev.outOf i)

/-- What generator `i` has handed over, to whichever race, in order. -/
def handedBy (s : St gen) (i : Nat) : List Gen.Got :=
  s.handed.reverse.filterMap fun x => if x.2.1 = i then some x.2.2 else none

/-- What a generator holds that it has not handed over. -/
def held (s : Gen.St) : List Gen.Got :=
  s.result.toList.map .val ++ s.buffer.toList.map .val ++ s.exc.toList.map .err

/-- No coroutine awaits `this_coro::initial`: the generators are eager. -/
def Ev.eager : Ev gen → Prop
  | .act _ .initial => False
  | _ => True

def Eager (es : List (Ev gen)) : Prop := ∀ e ∈ es, e.eager

/-- Eager, its object exists and no awaiter was destroyed. -/
structure Live (s : Gen.St) : Prop where
  lazy : s.lazy = false
  recv : s.recv = true
  killed : s.killed = []

structure Same (s t : Gen.St) : Prop where
  lazy : t.lazy = s.lazy
  recv : t.recv = s.recv
  killed : t.killed = s.killed

theorem Same.rfl {s : Gen.St} : Same s s := ⟨by rfl, by rfl, by rfl⟩

theorem Same.trans {s t u : Gen.St} (h : Same s t) (k : Same t u) : Same s u :=
  ⟨k.lazy.trans h.lazy, k.recv.trans h.recv, k.killed.trans h.killed⟩

theorem Same.after {s t u : Gen.St} (k : Same t u) (h : Same s t) : Same s u := h.trans k

theorem Same.live {s t : Gen.St} (h : Same s t) (k : Live s) : Live t :=
  ⟨h.lazy.trans k.lazy, h.recv.trans k.recv, h.killed.trans k.killed⟩

theorem same_resumeAw (s : Gen.St) (a : Nat) : Same s (s.resumeAw a) := by
  unfold Gen.St.resumeAw Gen.St.takeResult Gen.St.give
  split
  · exact ⟨rfl, rfl, rfl⟩
  · split
    · exact ⟨rfl, rfl, rfl⟩
    · split
      · exact ⟨rfl, rfl, rfl⟩
      · split
        · exact ⟨rfl, rfl, rfl⟩
        · split
          · split <;> exact ⟨rfl, rfl, rfl⟩
          · exact ⟨rfl, rfl, rfl⟩

theorem same_wake (s : Gen.St) : Same s s.wake := by
  unfold Gen.St.wake
  split
  · exact Same.rfl
  · exact Same.trans (t := { s with awaited := none }) ⟨rfl, rfl, rfl⟩ (same_resumeAw _ _)

theorem same_bodyResume (s : Gen.St) : Same s s.bodyResume := by
  unfold Gen.St.bodyResume; split <;> exact ⟨rfl, rfl, rfl⟩

theorem same_put (s : Gen.St) (v : Nat) : Same s (s.put v) := by
  unfold Gen.St.put
  split
  · exact ⟨rfl, rfl, rfl⟩
  · split <;> exact ⟨rfl, rfl, rfl⟩

theorem same_suspend (s : Gen.St) : Same s s.suspend := by
  unfold Gen.St.suspend
  split
  · exact ⟨rfl, rfl, rfl⟩
  · split
    · exact same_bodyResume s
    · exact Same.trans (t := { s with phase := .parked }) ⟨rfl, rfl, rfl⟩ (same_wake _)

theorem same_finish (s : Gen.St) : Same s s.finish := by
  unfold Gen.St.finish
  exact Same.trans (t := { s with phase := .gone, done := true }) ⟨rfl, rfl, rfl⟩ (same_wake _)

theorem same_step {s : Gen.St} {b : Body} (hb : b ≠ .initial) : Same s (s.step b.ev) := by
  unfold Gen.St.step
  split
  · exact Same.rfl
  · cases b with
    | initial => exact absurd rfl hb
    | yield v =>
      dsimp only [Body.ev]
      split
      · split
        · exact same_put s v
        · exact (same_put s v).trans (same_suspend _)
      · exact same_suspend s
    | ret v =>
      dsimp only [Body.ev]
      split
      · split
        · exact same_put s v
        · exact (same_put s v).trans (same_finish _)
      · exact ⟨rfl, rfl, rfl⟩
    | throw e =>
      dsimp only [Body.ev]
      split
      · exact Same.trans (t := { s with exc := some (.user e) }) ⟨rfl, rfl, rfl⟩ (same_finish _)
      · exact ⟨rfl, rfl, rfl⟩
    | run =>
      dsimp only [Body.ev]
      split
      · exact same_bodyResume s
      · exact ⟨rfl, rfl, rfl⟩

theorem same_await (s : Gen.St) (a p : Nat) : Same s (s.await a p) := by
  unfold Gen.St.await
  dsimp only
  split
  · exact (same_resumeAw _ _).after ⟨rfl, rfl, rfl⟩
  · split
    · exact (same_resumeAw _ _).after ⟨rfl, rfl, rfl⟩
    · split <;> split <;> first | exact ⟨rfl, rfl, rfl⟩ | exact (same_bodyResume _).after ⟨rfl, rfl, rfl⟩

theorem same_interrupt (s : Gen.St) (a : Nat) : Same s (s.interrupt a) := by
  unfold Gen.St.interrupt
  split
  · exact ⟨rfl, rfl, rfl⟩
  · exact (same_wake _).after ⟨rfl, rfl, rfl⟩

/-- Every generator is in order, and its specification has seen what its coroutine gave. -/
structure Flow (s : St gen) (es : List (Ev gen)) : Prop where
  sp : ∀ i, ∃ p, Gen.Inv false p (s.src i) ∧ p.outs = outs i es
  live : ∀ i, Live (s.src i)

theorem Flow.start (void : Nat → Bool) : Flow (gens void) [] :=
  ⟨fun i => ⟨{}, Gen.Inv.init false (void i), rfl⟩, fun _ => ⟨rfl, rfl, rfl⟩⟩

theorem Flow.held {s : St gen} {es : List (Ev gen)} (h : Flow s es) (i : Nat) :
    outs i es = ((s.src i).log.reverse.map Prod.snd).filter Gen.ofBody ++ Again.held (s.src i) := by
  obtain ⟨p, hp, ho⟩ := h.sp i
  rw [← ho, hp.outs (h.live i).recv]
  congr 1
  unfold Again.held Gen.pend
  cases (s.src i).result <;> cases (s.src i).buffer <;> cases (s.src i).exc <;> rfl

/-- A generator that is asked has not been awaited by this race. -/
theorem Good.fresh {c : Cfg} (hc : Proper c) {s : St gen} {evs : List Comb.Ev} {I : Gen.St → Prop} (h : Good I c s evs)
    {es : List (Ev gen)} (f : Flow s es) {i : Nat} (hi : s.asked = some i) : (s.src i).aw s.round = none := by
  obtain ⟨_, _, ha⟩ := h.all hc
  have hch : s.comb.child i = .asking :=
    (ha.inv.asking i).2 (by rw [Comb.tags_of_head (asked_eq hi)]; simp [Comb.Frame.tag])
  cases hw : (s.src i).aw s.round with
  | none => rfl
  | some w =>
    exfalso
    obtain ⟨p, hp, -⟩ := f.sp i
    cases hg : w.got with
    | none =>
      have h1 := hp.pending _ _ hw hg (by rw [(f.live i).killed]; simp)
      have h2 : (s.src i).awaited = _ := h.waits i
      rw [h1, hch] at h2
      simp at h2
    | some g =>
      have h1 := (hp.log _ _).2 ⟨w, hw, hg⟩
      have h2 : (s.src i).log = _ := h.log i
      rw [h2, List.mem_filterMap] at h1
      obtain ⟨⟨r, j, g'⟩, h3, h4⟩ := h1
      simp only [Option.ite_none_right_eq_some, Option.some.injEq, Prod.mk.injEq] at h4
      obtain ⟨rfl, rfl, rfl⟩ := h4
      have h5 : (j, g') ∈ handedTo s s.round := by
        unfold handedTo
        rw [List.mem_filterMap]
        exact ⟨_, h3, by simp⟩
      have h6 : (j, genOut g') ∈ evs.filterMap Comb.Ev.ends := by
        rw [h.ends, List.mem_map]
        exact ⟨_, List.mem_reverse.2 h5, rfl⟩
      have h7 := ha.hist.ended j
      rw [hch] at h7
      have : (Comb.outcome evs j).isSome = true := by
        unfold Comb.outcome
        rw [List.findSome?_isSome_iff]
        exact ⟨_, h6, by simp⟩
      rw [this] at h7
      simp [Comb.CS.ended] at h7

theorem outs_snoc (i : Nat) (es : List (Ev gen)) (e : Ev gen) : outs i (es ++ [e]) = outs i es ++ (e.outOf i).toList := by
  unfold outs
  rw [List.filterMap_append]
  cases h : e.outOf i <;> simp [h]

/-- Generator `i` does something; the others do nothing. -/
theorem Flow.one {s t : St gen} {es : List (Ev gen)} (f : Flow s es) {e : Ev gen} {i : Nat} {x : Gen.St}
    (hs : t.src = Comb.upd s.src i x) (hx : Live x) (hi : ∃ p, Gen.Inv false p x ∧ p.outs = outs i (es ++ [e]))
    (hj : ∀ j, j ≠ i → e.outOf j = none) : Flow t (es ++ [e]) := by
  constructor <;> intro j <;> rw [hs, Comb.upd_apply] <;> split
  · rename_i h; subst h; exact hi
  · rename_i h
    obtain ⟨p, h1, h2⟩ := f.sp j
    exact ⟨p, h1, by rw [outs_snoc, hj j h, h2]; simp⟩
  · exact hx
  · exact f.live j

theorem Flow.none {s t : St gen} {es : List (Ev gen)} (f : Flow s es) {e : Ev gen} (hs : t.src = s.src)
    (hj : ∀ j, e.outOf j = none) : Flow t (es ++ [e]) := by
  constructor <;> intro j <;> rw [hs]
  · obtain ⟨p, h1, h2⟩ := f.sp j
    exact ⟨p, h1, by rw [outs_snoc, hj j, h2]; simp⟩
  · exact f.live j

theorem Flow.act {s : St gen} {es : List (Ev gen)} (f : Flow s es) {i : Nat} {b : Body} (hcan : (s.src i).can b.ev = true)
    (hb : b ≠ .initial) : ∃ p, Gen.Inv false p ((s.src i).step b.ev) ∧ p.outs = outs i (es ++ [.act i b]) := by
  obtain ⟨p, h1, h2⟩ := f.sp i
  have hl := f.live i
  refine ⟨p.step b.ev, h1.step hcan ?_ (by simp), ?_⟩
  · cases b with
    | initial => exact absurd rfl hb
    | throw e =>
      intro _
      simp only [Body.ev, Gen.St.can, beq_iff_eq] at hcan
      exact (h1.eagerR hl.recv hl.lazy hcan).1
    | _ => trivial
  · have hd : p.dropped = false := by rw [h1.dropped, hl.recv]; rfl
    rw [outs_snoc, ← h2]
    cases b <;> simp [Gen.Sp.step, Gen.Sp.out, Body.ev, Ev.outOf, hd]

theorem Flow.ask {s : St gen} {es : List (Ev gen)} (f : Flow s es) {i a q : Nat} {d : Bool} (ha : (s.src i).aw a = .none) :
    ∃ p, Gen.Inv false p ((s.src i).await a q) ∧ p.outs = outs i (es ++ [.ask q d]) := by
  obtain ⟨p, h1, h2⟩ := f.sp i
  have hl := f.live i
  have hcan : (s.src i).can (.await a q) = true := by simp [Gen.St.can, hl.recv, ha]
  have hs : (s.src i).step (.await a q) = (s.src i).await a q := by
    unfold Gen.St.step; rw [if_neg (by simp [h1.ub, hcan])]
  refine ⟨p.step (.await a q), ?_, ?_⟩
  · rw [← hs]
    refine h1.step hcan ?_ (by simp)
    intro hz; rw [hl.lazy] at hz; simp at hz
  · rw [outs_snoc, ← h2]; simp [Gen.Sp.step, Ev.outOf]

theorem Flow.intr {s : St gen} {es : List (Ev gen)} (f : Flow s es) {i a : Nat} (ha : (s.src i).awaited = some a) :
    ∃ p, Gen.Inv false p ((s.src i).interrupt a) ∧ p.outs = outs i (es ++ [.intr]) := by
  obtain ⟨p, h1, h2⟩ := f.sp i
  have hl := f.live i
  obtain ⟨h3, w, h4, -⟩ := h1.awaited a ha
  have hcan : (s.src i).can (.interrupt a) = true := by
    simp only [Gen.St.can, hl.recv, h4, hl.killed]; rfl
  have hs : (s.src i).step (.interrupt a) = (s.src i).interrupt a := by
    unfold Gen.St.step; rw [if_neg (by simp [h1.ub, hcan])]
  refine ⟨p.step (.interrupt a), ?_, ?_⟩
  · rw [← hs]
    refine h1.step hcan ⟨ha, ?_⟩ (by simp)
    intro hz; rw [hl.lazy] at hz; simp at hz
  · rw [outs_snoc, ← h2]; simp [Gen.Sp.step, Ev.outOf]

theorem Flow.step {c : Cfg} (hc : Proper c) {I : Gen.St → Prop} (hS : gen.Ok I) {s : St gen} {evs : List Comb.Ev} (h : Good I c s evs)
    {es : List (Ev gen)} (f : Flow s es) {e : Ev gen} (hcan : s.can c e = true) (hu : (s.step c e).ub = false)
    (he : e.eager) : Flow (s.step c e) (es ++ [e]) := by
  have hk := h.cases hS hc hcan hu
  generalize s.step c e = t at hk
  clear hu
  cases hk with
  | calm ce hx => exact f.none rfl (by rcases hx with ⟨-, ⟨d, -, rfl⟩ | ⟨-, rfl⟩ | ⟨-, rfl⟩ | ⟨ct, -, rfl⟩⟩ <;> intro j <;> rfl)
  | ready i p d g hi =>
    exact f.one (i := i) rfl ((same_await _ _ _).live (f.live i)) (f.ask (h.fresh hc f hi)) fun _ _ => rfl
  | notReady i p d hi =>
    exact f.one (i := i) rfl ((same_await _ _ _).live (f.live i)) (f.ask (h.fresh hc f hi)) fun _ _ => rfl
  | stays i b =>
    have hb : b ≠ .initial := by rintro rfl; exact he
    simp only [St.can, Bool.and_eq_true] at hcan
    refine f.one (i := i) rfl ((same_step hb).live (f.live i)) (f.act hcan.1.2 hb) fun j hj => ?_
    cases b <;> simp [Ev.outOf, Ne.symm hj]
  | gives i b =>
    have hb : b ≠ .initial := by rintro rfl; exact he
    simp only [St.can, Bool.and_eq_true] at hcan
    refine f.one (i := i) rfl ((same_step hb).live (f.live i)) (f.act hcan.1.2 hb) fun j hj => ?_
    cases b <;> simp [Ev.outOf, Ne.symm hj]
  | cut i g hI hi hc' hg hw =>
    refine f.one (i := i) rfl ((same_interrupt _ _).live (f.live i)) (f.intr ?_) fun _ _ => rfl
    have := h.waits i
    rw [if_pos hw] at this
    exact this
  | next => exact f.none rfl fun _ => rfl

theorem Flow.steps {c : Cfg} (hc : Proper c) {I : Gen.St → Prop} (hS : gen.Ok I) : ∀ (es : List (Ev gen)) {s : St gen}
    {evs : List Comb.Ev} {old : List (Ev gen)}, Good I c s evs → Flow s old → Legal c s es → Eager es →
    (s.steps c es).fine → Flow (s.steps c es) (old ++ es)
  | [], _, _, old, _, f, _, _, _ => by rw [List.append_nil]; exact f
  | e :: es, s, _, old, h, f, hl, hE, hf => by
    have hf1 := fine_step hf
    obtain ⟨evs', h'⟩ := h.step hS hc hl.1 hf1.1 hf1.2
    have := Flow.steps hc hS es h' (f.step hc hS h hl.1 hf1.1 (hE e (by simp))) hl.2 (fun x hx => hE x (by simp [hx])) hf
    rw [List.append_assoc] at this
    exact this

/-- The value of a race that source `i` won. -/
def wonBy (i : Nat) (x : Nat × Comb.Res) : Option Nat :=
  match x.2 with
  | .winner j (some v) => if j = i then some v else none
  | _ => none

/-- The value handed over by source `i`. -/
def valBy (i : Nat) (x : Nat × Gen.Got) : Option Nat :=
  match x.2 with
  | .val v => if x.1 = i then some v else none
  | _ => none

/-- What races gave and what was handed over. -/
def Tally (s : St gen) : Prop :=
  ∀ i, s.handed.reverse.filterMap (fun x => valBy i x.2) =
    s.gave.reverse.filterMap (wonBy i) ++ (handedTo s s.round).reverse.filterMap (valBy i)

theorem Tally.start (void : Nat → Bool) : Tally (gens void) := fun _ => rfl

theorem Tally.hand {s t : St gen} (k : Tally s) {j : Nat} {g : Gen.Got} (hr : t.round = s.round) (hg : t.gave = s.gave)
    (hh : t.handed = (s.round, j, g) :: s.handed) : Tally t := by
  intro i
  have h1 : handedTo t t.round = (j, g) :: handedTo s s.round := by
    unfold handedTo; rw [hr, hh, List.filterMap_cons]; simp
  rw [h1, hg, hh, List.reverse_cons, List.reverse_cons, List.filterMap_append, List.filterMap_append, k i, List.append_assoc]
  congr 1

theorem Tally.same {s t : St gen} (k : Tally s) (hr : t.round = s.round) (hg : t.gave = s.gave) (hh : t.handed = s.handed) :
    Tally t := by
  intro i
  have h1 : handedTo t t.round = handedTo s s.round := by
    unfold handedTo; rw [hr, hh]
  rw [h1, hg, hh]; exact k i

/-- If all but the last are nothing but answers to interruptions, only the last counts. -/
theorem val_last {l : List (Nat × Gen.Got)} {j : Nat} {g : Gen.Got} (hl : l.getLast? = some (j, g))
    (hc : ∀ x ∈ l.dropLast, gen.cut x.2 = true) (i : Nat) :
    l.reverse.filterMap (valBy i) = (wonBy i (0, given j (genOut g))).toList := by
  obtain ⟨l', rfl⟩ := List.getLast?_eq_some_iff.1 hl
  rw [List.dropLast_concat] at hc
  rw [List.reverse_append, List.filterMap_append]
  have h1 : l'.reverse.filterMap (valBy i) = [] := by
    rw [List.filterMap_eq_nil_iff]
    intro x hx
    have := hc x (List.mem_reverse.1 hx)
    have h2 : x.2 = .err .detached := by simpa using this
    unfold valBy; rw [h2]
  rw [h1, List.append_nil]
  cases g with
  | val v => by_cases hj : j = i <;> simp [valBy, wonBy, given, genOut, hj]
  | err e => simp [valBy, wonBy, given, genOut]

theorem Tally.step {c : Cfg} (hc : Proper c) {I : Gen.St → Prop} (hS : gen.Ok I) {s : St gen} {evs : List Comb.Ev}
    (h : Good I c s evs) (sh : Sharp c s) (k : Tally s) {e : Ev gen} (hcan : s.can c e = true) (hu : (s.step c e).ub = false) :
    Tally (s.step c e) := by
  have hk := h.cases hS hc hcan hu
  generalize s.step c e = t at hk
  clear hu
  cases hk with
  | calm ce => exact k.same rfl rfl rfl
  | ready i p d g hi => exact k.hand rfl rfl rfl
  | notReady i p d hi => exact k.same rfl rfl rfl
  | stays i b => exact k.same rfl rfl rfl
  | gives i b g => exact k.hand rfl rfl rfl
  | cut i g => exact k.hand rfl rfl rfl
  | next ho =>
    intro i
    obtain ⟨j, g, h1, h2⟩ := h.result hc ho
    have h3 : handedTo { s with comb := {}, round := s.round + 1, gave := (s.round, s.comb.resume c) :: s.gave } (s.round + 1) = [] := by
      unfold handedTo
      rw [List.filterMap_eq_nil_iff]
      intro x hx
      have := h.le x hx
      rw [if_neg (by omega)]
    dsimp only at h3 ⊢
    rw [h3, List.reverse_cons, List.filterMap_append, k i, val_last h1 (sh.cut s.round) i, h2]
    simp only [List.reverse_nil, List.filterMap_nil, List.append_nil]
    congr 1

theorem Tally.steps {c : Cfg} (hc : Proper c) {I : Gen.St → Prop} (hS : gen.Ok I) : ∀ (es : List (Ev gen)) {s : St gen}
    {evs : List Comb.Ev}, Good I c s evs → Sharp c s → Tally s → Legal c s es → Marked es →
    (s.steps c es).fine → Tally (s.steps c es)
  | [], _, _, _, _, k, _, _, _ => k
  | e :: es, s, _, h, sh, k, hl, hm, hf => by
    have hf1 := fine_step hf
    obtain ⟨evs', h'⟩ := h.step hS hc hl.1 hf1.1 hf1.2
    exact Tally.steps hc hS es h' (sh.step hS hc h hl.1 (hm e (by simp)) hf1.1 hf1.2)
      (k.step hc hS h sh hl.1 hf1.1) hl.2 (fun x hx => hm x (by simp [hx])) hf

end Cobalt.Again
