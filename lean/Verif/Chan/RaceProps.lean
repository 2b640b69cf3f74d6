import Verif.Chan.RaceInv
/-!
# C90: a race of channel operations loses nothing

`race` of `read()` and `write(…)` operations, on any number of channels that have been used in any way before and
are used by others meanwhile: at most one of the operations takes place, namely the one the race reports. No value
is taken from a channel and thrown away, none is written though the race reports something else, and the other users of
the channels are not disturbed.

This is what transactions are for. It is wrong: an operation that finds the other side waiting when it is
awaited takes place in `await_suspend` (impl/channel.hpp:119-142, 241-263) without a transaction of its own race,
and the race goes on to start further operations. `C90_partial`: it is right if no operation finds the other
side waiting at the start of its branch.
-/
namespace Cobalt.Chan

/-- At most one operation took place, the reported one, and nobody was disturbed. -/
def Race.Faithful (s : Race) : Prop :=
  s.threw = false ∧ ∀ κ ∈ s.started, (s.ch κ.ch).succeeded κ.op → ∃ i, s.index = some i ∧ s.kids[i]? = some κ

/-- **C90.** -/
def C90 : Prop := ∀ (s : Race) (es : List REv), s.Fresh → (s.steps es).defined → (s.steps es).Faithful

/-- **C90** if no operation finds the other side waiting when it is started. Missing: `act`. -/
theorem C90_partial {s : Race} (hf : s.Fresh) (es : List REv) (hd : (s.steps es).defined)
    (ha : (s.steps es).act = false) : (s.steps es).Faithful := by
  have h := Race.steps_good hf.good es hd ha
  refine ⟨h.threw, fun κ hκ hs => ?_⟩
  cases hi : (s.steps es).index with
  | none =>
    exfalso
    have := h.noWinner hi κ hκ
    unfold Race.fine at this
    cases ho : κ.op with
    | r i => rw [ho] at this hs; obtain ⟨w, hw⟩ := hs; exact this.2.2.2 w hw
    | w i => rw [ho] at this hs; exact this.2.2.2 hs
  | some i =>
    obtain ⟨_, κ', h2, _, h4⟩ := h.winner i hi
    refine ⟨i, rfl, ?_⟩
    rw [h2]
    congr 1
    apply Classical.byContradiction
    intro hne
    have := h4 κ hκ (fun h' => hne h'.symm)
    unfold Race.dead at this
    cases ho : κ.op with
    | r i => rw [ho] at this hs; obtain ⟨w, hw⟩ := hs; exact this.2.2.2.2.2 w hw
    | w i => rw [ho] at this hs; exact this.2.2.2.2.2 hs

/-- The await of this operation has ended, or its end is on its way: it waits for no other coroutine. -/
def St.ending (s : St) (t : Tok) : Prop := s.stat t = .done ∨ s.stat t = .gone ∨ t ∈ s.posted

/-- The race does not wait for the losers: once there is a winner, every other operation has ended, or is about to.
And so is the winner itself; and when all of them have ended, there is a winner. -/
theorem C90_waits_partial {s : Race} (hf : s.Fresh) (es : List REv) (hd : (s.steps es).defined)
    (ha : (s.steps es).act = false) :
    (∀ i, (s.steps es).index = some i → ∀ κ ∈ (s.steps es).started, ((s.steps es).ch κ.ch).ending κ.op) ∧
    ((s.steps es).index = none → ∀ κ ∈ (s.steps es).started, (s.steps es).stat κ = .susp) ∧
    ((s.steps es).over → ∃ i κ, (s.steps es).index = some i ∧ (s.steps es).kids[i]? = some κ) := by
  have h := Race.steps_good hf.good es hd ha
  generalize s.steps es = s at *
  refine ⟨fun i hi κ hκ => ?_, fun hi κ hκ => Fine.stat (h.noWinner hi κ hκ), fun ho => ?_⟩
  · obtain ⟨_, κ', h2, h3, h4⟩ := h.winner i hi
    have hwf := ((h.sane κ.ch).wf (hd κ.ch)).1
    by_cases hne : κ = κ'
    · subst hne
      rcases h3 with h3 | h3
      · exact Or.inl h3
      · exact Or.inr (Or.inl h3)
    · have := h4 κ hκ hne
      unfold Race.dead at this
      unfold St.ending St.stat
      cases ho : κ.op with
      | r i =>
        rw [ho] at this
        obtain ⟨h5, h6, _, _, h7, _⟩ := this
        have h8 := hwf.rsusp i
        cases hs : ((s.ch κ.ch).R i).status <;> simp_all
      | w i =>
        rw [ho] at this
        obtain ⟨h5, h6, _, _, h7, _⟩ := this
        have h8 := hwf.wsusp i
        cases hs : ((s.ch κ.ch).W i).status <;> simp_all
  · cases hi : s.index with
    | some i => obtain ⟨_, κ, h2, _⟩ := h.winner i hi; exact ⟨i, κ, rfl, h2⟩
    | none =>
      obtain ⟨hg, hpos, hall⟩ := ho
      have h0 : 0 < s.kids.length := Nat.lt_of_lt_of_le hpos h.len
      have hm := Race.mem_started (s := s) hpos (List.getElem?_eq_getElem h0)
      have h1 : s.stat _ = .susp := Fine.stat (h.noWinner hi _ hm)
      have h2 := hall _ hm
      rw [h1] at h2
      simp at h2

/-! ## Where it is wrong -/

/-- Two rendezvous channels with a waiting writer each, and a race of two reads. -/
def twoReads : Race :=
  { ch := fun _ => exec 0 [.mkW, .awaitW 0 true false [], .mkR], kids := [⟨0, .r 0⟩, ⟨1, .r 0⟩] }

theorem twoReads_fresh : twoReads.Fresh where
  ch _ := ⟨0, _, rfl⟩
  kids := by decide
  fresh := by decide
  next := rfl
  going := rfl
  gap := rfl
  index := rfl
  threw := rfl
  act := rfl

/-- Two rendezvous channels with a waiting reader each, and a race of two writes. -/
def twoWrites : Race :=
  { ch := fun _ => exec 0 [.mkR, .awaitR 0 true false [], .mkW], kids := [⟨0, .w 0⟩, ⟨1, .w 0⟩] }

theorem twoWrites_fresh : twoWrites.Fresh where
  ch _ := ⟨0, _, rfl⟩
  kids := by decide
  fresh := by decide
  next := rfl
  going := rfl
  gap := rfl
  index := rfl
  threw := rfl
  act := rfl

/-- Three rendezvous channels, a writer waits at the second. -/
def threeReads : Race :=
  { ch := fun c => if c = 1 then exec 0 [.mkW, .awaitW 0 true false [], .mkR] else exec 0 [.mkR, .mkW]
    kids := [⟨0, .r 0⟩, ⟨1, .r 0⟩, ⟨2, .r 0⟩] }

theorem threeReads_fresh : threeReads.Fresh where
  ch c := by
    unfold threeReads
    dsimp only
    split
    · exact ⟨0, _, rfl⟩
    · exact ⟨0, _, rfl⟩
  kids := by decide
  fresh := by decide
  next := rfl
  going := rfl
  gap := rfl
  index := rfl
  threw := rfl
  act := rfl

/-- `co_await race(c0.read(), c1.read())` with a writer waiting at both channels: both reads take a value, both
writes succeed, the race reports the first, the other value is gone. -/
def bothTaken : Race := twoReads.steps [.start, .start, .env 0 (.run 0), .env 1 (.run 0)]

theorem C90_lost_violated : bothTaken.over ∧ bothTaken.index = some 0 ∧
    (∀ c < 2, Obs.doneW 0 .ok ∈ (bothTaken.ch c).log ∧ Obs.doneR 0 (.value 0) ∈ (bothTaken.ch c).log ∧
      (bothTaken.ch c).ub = false) := by
  decide

/-- `co_await race(c0.write(x), c1.write(y))` with a reader waiting at both channels: both values are read, though
the race reports that only the first was written. -/
def bothWritten : Race := twoWrites.steps [.start, .start, .env 0 (.run 0), .env 1 (.run 0)]

theorem C90_written_violated : bothWritten.over ∧ bothWritten.index = some 0 ∧
    (∀ c < 2, Obs.doneW 0 .ok ∈ (bothWritten.ch c).log ∧ Obs.doneR 0 (.value 0) ∈ (bothWritten.ch c).log ∧
      (bothWritten.ch c).ub = false) := by
  decide

/-- While the second read of a race takes its value, the resumed writer writes to the first channel, which makes its
read the winner; the third read is started nevertheless; who writes to its channel gets the exception of the
race. -/
def disturbed : Race := threeReads.steps
  [.start, .start, .env 0 (.awaitW 0 true false []), .start, .env 2 (.awaitW 0 true false [])]

theorem C90_threw_violated : disturbed.threw = true ∧ disturbed.index = some 0 ∧
    Obs.doneR 0 (.value 0) ∈ (disturbed.ch 0).log ∧ (∀ c < 3, (disturbed.ch c).ub = false) := by
  decide

theorem C90_violated : ¬C90 := by
  intro h
  have hd : bothTaken.defined := by
    intro c
    by_cases hc : c < 2
    · exact (C90_lost_violated.2.2 c hc).2.2
    · have := (Race.Away.steps (c := c) [.start, .start, .env 0 (.run 0), .env 1 (.run 0)] twoReads (by
        intro κ hκ
        simp only [twoReads, List.mem_cons, List.not_mem_nil, or_false] at hκ
        rcases hκ with rfl | rfl <;> simp <;> omega) (by
        intro c' e he
        simp only [List.mem_cons, reduceCtorEq, REv.env.injEq, List.not_mem_nil, or_false, false_or] at he
        omega)).1
      rw [bothTaken, this]
      rfl
  obtain ⟨i, h1, h2⟩ := (h twoReads _ twoReads_fresh hd).2 ⟨1, .r 0⟩ (by decide)
    ⟨0, (C90_lost_violated.2.2 1 (by decide)).2.1⟩
  have h3 : bothTaken.index = some i := h1
  rw [C90_lost_violated.2.1] at h3
  cases h3
  revert h2
  decide

/-! ## A case in which it is right -/

/-- Two empty rendezvous channels, and a race of a read of the first and a write to the second. -/
def mixed : Race := { ch := fun _ => exec 0 [.mkR, .mkW], kids := [⟨0, .r 0⟩, ⟨1, .w 0⟩] }

theorem mixed_fresh : mixed.Fresh where
  ch _ := ⟨0, _, rfl⟩
  kids := by decide
  fresh := by decide
  next := rfl
  going := rfl
  gap := rfl
  index := rfl
  threw := rfl
  act := rfl

/-- A reader comes at the second channel: the write takes place, the read does not, and who writes to the first
channel afterwards waits for somebody else. -/
def mixedEnd : Race := mixed.steps [.start, .start, .env 1 (.awaitR 0 true false []), .destroy,
  .env 0 (.awaitW 0 true false []), .env 1 (.run 0)]

example : mixedEnd.act = false ∧ mixedEnd.index = some 1 ∧ (∀ c < 2, (mixedEnd.ch c).ub = false) ∧
    Obs.doneW 0 .ok ∈ (mixedEnd.ch 1).log ∧ Obs.doneR 0 (.value 0) ∈ (mixedEnd.ch 1).log ∧
    (mixedEnd.ch 0).wq = [0] ∧ mixedEnd.stat ⟨0, .r 0⟩ = .gone := by
  decide

/-- While neither has happened, both wait. -/
example : (mixed.steps [.start, .start]).index = none ∧ (mixed.steps [.start, .start]).started.length = 2 := by decide

/-- If the race is a variable that outlives its `co_await`, the loser stays in the queue of its channel: who writes
to it next resumes a null handle (`interrupt_await`, channel.hpp:88-96, does not leave the queue). -/
theorem C90_named_violated :
    (mixed.steps [.start, .start, .env 1 (.awaitR 0 true false [])]).over ∧
    (∀ c < 2, ((mixed.steps [.start, .start, .env 1 (.awaitR 0 true false [])]).ch c).ub = false) ∧
    ((mixed.steps [.start, .start, .env 1 (.awaitR 0 true false []), .env 0 (.awaitW 0 true false [])]).ch 0).ub = true := by
  decide

end Cobalt.Chan
