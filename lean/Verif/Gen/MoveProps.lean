import Verif.Gen.MoveLemmas
import Verif.Gen.Props
/-! Property C83: moving generators. -/
namespace Cobalt.Gen.Move

open Prom (upd upd_apply)

/-! ## C83 -/

/-- What the object at `r` gave, in order, if there is one. -/
def gave (s : St) (r : Nat) : List Got :=
  match s.obj r with
  | none => []
  | some o => o.g.log.reverse.map Prod.snd

/-- The answer is a value. -/
def isVal : Got → Bool
  | .val _ => true
  | .err _ => false

/-- **C83** in full: whatever generators are moved or assigned to when, nothing undefined
happens unless it does without the moves; a generator gave what the body gave first, in
that order; an object that was moved from gives no value. -/
def C83 (v : Bool) (left : Nat → Nat) : Prop := ∀ es, Legal { void := v, left := left } es →
  (∀ c, Gen.TidyRun {} { void := v } ((spec es).hist c)) →
  (St.run v left es).ub = false ∧
  (∀ r c, (spec es).holds r = .of c →
    (gave (St.run v left es) r).filter ofBody <+: (Gen.spec ((spec es).hist c)).outs) ∧
  ∀ r x, (spec es).holds r = .moved → x ∈ gave (St.run v left es) r → isVal x = false

/-- **C83** for the uses listed at `Tidy`: moving changes nothing. Unless something
undefined happens in the history of one of the generators without its moves, nothing
undefined happens, and each generator is in the state that it is in after that history. -/
theorem C83_same_partial (v : Bool) (left : Nat → Nat) (es : List Ev) (ht : TidyRun {} { void := v, left := left } es) :
    ((St.run v left es).ub = true ↔ ∃ c, (Gen.St.run v ((spec es).hist c)).ub = true) ∧
    ((St.run v left es).ub = false → ∀ r c, (spec es).holds r = .of c →
      ((St.run v left es).obj r).map (·.g) = some (Gen.St.run v ((spec es).hist c))) := by
  rcases SimOr.after ht with h | ⟨h, c, hc⟩
  · refine ⟨⟨fun hu => ?_, fun ⟨c, hc⟩ => ?_⟩, fun _ r c hr => by rw [h.obj r c hr]; rfl⟩
    · rw [h.ub] at hu; simp at hu
    · rw [h.gub c] at hc; simp at hc
  · exact ⟨⟨fun _ => ⟨c, hc⟩, fun _ => h⟩, fun hu => by rw [h] at hu; simp at hu⟩

/-- **C83** for these uses: the history of a generator without its moves is a possible
one. -/
theorem C83_legal_partial (v : Bool) (left : Nat → Nat) (es : List Ev) (ht : TidyRun {} { void := v, left := left } es)
    (hu : (St.run v left es).ub = false) (c : Nat) : Gen.Legal { void := v } ((spec es).hist c) := by
  rcases SimOr.after ht with h | ⟨h, -⟩
  · exact h.legal c
  · rw [h] at hu; simp at hu

/-- **C83** for these uses and those for which generators work without moves (`Gen.Tidy`):
nothing undefined happens, a generator gave what the body gave first, in that order. -/
theorem C83_order_partial (v : Bool) (left : Nat → Nat) (es : List Ev) (ht : TidyRun {} { void := v, left := left } es)
    (hg : ∀ c, Gen.TidyRun {} { void := v } ((spec es).hist c)) :
    (St.run v left es).ub = false ∧
    ∀ r c, (spec es).holds r = .of c →
      (gave (St.run v left es) r).filter ofBody <+: (Gen.spec ((spec es).hist c)).outs := by
  have hb : (St.run v left es).ub = false := by
    cases hu : (St.run v left es).ub with
    | false => rfl
    | true =>
      obtain ⟨c, hc⟩ := (C83_same_partial v left es ht).1.1 hu
      rw [(C30_order_partial v _ (hg c)).1] at hc
      simp at hc
  refine ⟨hb, fun r c hr => ?_⟩
  have := (C83_same_partial v left es ht).2 hb r c hr
  cases ho : (St.run v left es).obj r with
  | none => rw [ho] at this; simp at this
  | some o =>
    rw [ho] at this
    simp only [Option.map_some, Option.some.injEq] at this
    simp only [gave, ho, this]
    exact (C30_order_partial v _ (hg c)).2.1

/-- **C83** for these uses: awaiting an object that was moved from fails, and leaves it as
it was but for the error. -/
theorem C83_moved_partial (v : Bool) (left : Nat → Nat) (es : List Ev) {a r x : Nat}
    (ht : TidyRun {} { void := v, left := left } (es ++ [.await a r x])) (hu : (St.run v left es).ub = false)
    (hm : (spec es).holds r = .moved) :
    ∃ y, gave (St.run v left (es ++ [.await a r x])) r = gave (St.run v left es) r ++ [.err y] ∧
      (y = .movedFrom ∨ y = .returnedVoid) ∧ (St.run v left (es ++ [.await a r x])).ub = false ∧
      ∀ q, q ≠ r → (St.run v left (es ++ [.await a r x])).obj q = (St.run v left es).obj q := by
  have split : ∀ (es : List Ev) p s, TidyRun p s (es ++ [.await a r x]) →
      TidyRun p s es ∧ (s.steps es).can (.await a r x) = true ∧ Tidy (p.steps es) (s.steps es) (.await a r x) := by
    intro es
    induction es with
    | nil => intro p s h; exact ⟨trivial, h.1, h.2.1⟩
    | cons e es ih => intro p s h; obtain ⟨h1, h2, h3⟩ := h; exact ⟨⟨h1, h2, (ih _ _ h3).1⟩, (ih _ _ h3).2⟩
  obtain ⟨ht, hc, hta⟩ := split es _ _ ht
  have happ : St.run v left (es ++ [.await a r x]) = (St.run v left es).step (.await a r x) := by
    simp [St.run, St.steps]
  rcases SimOr.after ht with h | ⟨h, -⟩
  · change (St.run v left es).can (.await a r x) = true at hc
    change Tidy (spec es) (St.run v left es) (.await a r x) at hta
    rw [happ]
    generalize St.run v left es = s at *
    have hsp := hta hm
    obtain ⟨o, ho, m1, m2, m3, m4, m5, m6⟩ := h.moved r hm
    have hc' := hc
    simp only [St.can, Bool.and_eq_true, Option.isNone_iff_eq_none] at hc'
    simp only [spent, ho] at hsp
    obtain ⟨n1, n2, n3, n4, n5, n6, n7, n8⟩ := moved_await (x := x) m1 m2 m3 m4 m5 m6 (h.fresh a hc'.2 r o ho) hsp
    have hstep : s.step (.await a r x) = St.put { s with self := upd s.self a (some r) } r o (o.g.step (.await a x)) := by
      unfold St.step
      rw [if_neg (by simp [hu, hc])]
      simp only [ho]
    rw [hstep]
    refine ⟨if o.g.exc = none then .returnedVoid else .movedFrom, ?_, ?_, n5, ?_⟩
    · simp only [gave, St.put, upd_apply, if_true, ho, n7]
      simp
    · split
      · exact .inr rfl
      · exact .inl rfl
    · intro q hq
      simp [St.put, hq]
  · rw [h] at hu; simp at hu

/-- **C83**: assigning to a generator is undefined exactly if the coroutine that it had
last is gone: it has ended, or was destroyed. In every state reached by the uses listed
at `Tidy`, whatever is assigned. -/
theorem C83_assign_exact (v : Bool) (left : Nat → Nat) (es : List Ev) {r r' : Nat} {o : Obj}
    (ht : TidyRun {} { void := v, left := left } es) (hu : (St.run v left es).ub = false)
    (ho : (St.run v left es).obj r = some o) (hc : (St.run v left es).can (.moveA r r') = true) :
    (St.run v left (es ++ [.moveA r r'])).ub = true ↔ (Gen.St.run v ((spec es).hist o.ref)).phase = .gone := by
  have happ : St.run v left (es ++ [.moveA r r']) = (St.run v left es).step (.moveA r r') := by
    simp [St.run, St.steps]
  rcases SimOr.after ht with h | ⟨h, -⟩
  · rw [happ]
    generalize St.run v left es = s at *
    have hc' := hc
    simp only [St.can, Bool.and_eq_true, Option.isSome_iff_exists, bne_iff_ne, ne_eq] at hc'
    obtain ⟨⟨-, o', ho'⟩, hne⟩ := hc'
    unfold St.step
    rw [if_neg (by simp [hu, hc])]
    simp only
    by_cases hl : lives s r = true
    · obtain ⟨hlu, h1⟩ := h.leave ho hl
      have hno := (h.lives_iff ho).1 hl
      simp only [hno, iff_false, Bool.not_eq_true]
      rw [moveAssign_eq hne ho ho' hlu]
      unfold St.moveConstruct
      have hob : upd s.obj r none r' = some o' := by simp [Ne.symm hne, ho']
      simp only [hob]
      exact h1.repoint_ub (r := r') (o := o') hob
    · have hg : (Gen.St.run v ((spec es).hist o.ref)).phase = .gone :=
        Classical.byContradiction fun hg => hl ((h.lives_iff ho).2 hg)
      have hf := h.gone o.ref (h.refs r o ho) hg
      simp [St.moveAssign, ho, ho', St.leave, hf, hg]
  · rw [h] at hu; simp at hu

/-- A generator is made, awaited, moved, awaited at its new place; another one is assigned
to it, and it is awaited again; the object that was moved from is awaited. -/
def moveSched : List Ev :=
  [.create 0 0, .body 0 (.yield 1), .await 0 0 10, .body 0 .run, .body 0 (.yield 2), .moveC 0 1, .await 1 1 11,
   .create 1 2, .body 1 (.yield 7), .moveA 1 2, .await 2 1 12, .await 3 0 13, .await 4 2 14, .body 0 .run]

example : TidyRun {} {} moveSched := by decide

example : ∀ c < 3, Gen.TidyRun {} {} ((spec moveSched).hist c) := by decide

/-- The object at 1 gave the second value of the first generator, then the first one of the
second; what was recorded of the first is gone with it. The first coroutine is gone. -/
example : gave (St.run false id (moveSched.take 7)) 1 = [.val 1, .val 2] ∧ gave (St.run false id moveSched) 1 = [.val 7] ∧
    gave (St.run false id moveSched) 0 = [.err .movedFrom] ∧ gave (St.run false id moveSched) 2 = [.err .movedFrom] ∧
    (St.run false id moveSched).frame 0 = none ∧ (spec moveSched).holds 1 = .of 1 ∧
    (spec (moveSched.take 7)).holds 1 = .of 0 ∧ (spec moveSched).holds 0 = .moved := by decide

/-- The hypotheses of `C83_moved_partial`. -/
example : TidyRun {} {} (moveSched.take 11 ++ [.await 3 0 13]) ∧ (spec (moveSched.take 11)).holds 0 = .moved ∧
    (St.run false id (moveSched.take 11)).ub = false := by decide

/-- The hypotheses of `C83_assign_exact`, for a generator whose coroutine runs, and for one
whose coroutine has ended. -/
example : (St.run false id (moveSched.take 9)).can (.moveA 1 2) = true ∧
    TidyRun {} {} [.create 0 0, .body 0 (.ret 1), .await 0 0 10, .create 1 1] ∧
    (St.run false id [.create 0 0, .body 0 (.ret 1), .await 0 0 10, .create 1 1]).can (.moveA 0 1) = true ∧
    (Gen.St.run false ((spec [.create 0 0, .body 0 (.ret 1), .await 0 0 10, .create 1 1]).hist 0)).phase = .gone := by decide

/-- **C83** does not hold in full: a generator whose coroutine has ended is assigned to.
The assignment looks into the frame of that coroutine. -/
theorem C83_assign_violated (v : Bool) (left : Nat → Nat) : ¬C83 v left := by
  intro h
  have hu := (h [.create 0 0, .body 0 (.ret 1), .await 0 0 10, .create 1 1, .moveA 0 1]
    (by cases v <;> exact ⟨rfl, rfl, rfl, rfl, rfl, trivial⟩)
    (fun c => match c with
      | 0 => by cases v <;> decide
      | 1 => trivial
      | _ + 2 => trivial)).1
  have : (St.run v left [.create 0 0, .body 0 (.ret 1), .await 0 0 10, .create 1 1, .moveA 0 1]).ub = true := by
    cases v <;> rfl
  rw [this] at hu
  simp at hu

/-- The object that was moved from gives what the move left of a value that the generator
held, after the error that it was moved from. The value is given by the generator, too. -/
theorem C83_left_violated (left : Nat → Nat) : ∃ es, Legal { left := left } es ∧ (St.run false left es).ub = false ∧
    (spec es).holds 0 = .moved ∧ (spec es).holds 1 = .of 0 ∧
    gave (St.run false left es) 1 = [.val 5] ∧
    gave (St.run false left es) 0 = [.err .movedFrom, .val (left 5)] ∧
    es = [.create 0 0, .body 0 (.yield 5), .moveC 0 1, .await 0 1 0, .await 1 0 0, .await 2 0 0] :=
  ⟨[.create 0 0, .body 0 (.yield 5), .moveC 0 1, .await 0 1 0, .await 1 0 0, .await 2 0 0], ⟨rfl, rfl, rfl, rfl, rfl, rfl, trivial⟩, rfl, rfl, rfl, rfl, rfl, rfl⟩

/-- A history in which a generator holds two values when it is moved. -/
def twoHeld : List Ev := [.create 0 0, .body 0 .initial, .await 0 0 1, .interrupt 0, .await 1 0 2, .interrupt 1, .body 0 (.yield 5),
  .body 0 (.yield 6), .moveC 0 1, .await 2 0 3, .get 3 0, .get 4 0]

/-- A history in which a generator holds a value and a pushed value when it is moved. -/
def pushHeld : List Ev := [.create 0 0, .body 0 .initial, .await 0 0 1, .interrupt 0, .await 1 0 2, .interrupt 1, .body 0 (.yield 5),
  .moveC 0 1, .await 2 0 3, .await 3 0 4]

/-- The same for the second value that a generator without pushed values can hold: the object that was moved from gives
what is left of both (here: 0). -/
theorem C83_buffer_violated : (St.run true (fun _ => 0) twoHeld).ub = false ∧ (spec twoHeld).holds 0 = .moved ∧
    (spec twoHeld).holds 1 = .of 0 ∧
    gave (St.run true (fun _ => 0) twoHeld) 0 = [.err .movedFrom, .val 0, .val 0] ∧
    Legal { void := true, left := fun _ => 0 } twoHeld :=
  ⟨by decide, by decide, by decide, by decide, by decide⟩

/-- A pushed value that the body has not taken stays in the object that was moved from as well. The await that would give
what was left there then finds the place for its own pushed value taken, which is undefined. -/
theorem C83_pushed_violated : (St.run false (fun _ => 0) pushHeld).ub = true ∧ (spec pushHeld).holds 0 = .moved ∧
    (spec pushHeld).holds 1 = .of 0 ∧ Legal { left := fun _ => 0 } pushHeld :=
  ⟨by decide, by decide, by decide, by decide⟩

/-- If the coroutine has ended there is not even the error. -/
theorem C83_noerror_violated (left : Nat → Nat) : ∃ es, Legal { left := left } es ∧ (St.run false left es).ub = false ∧
    (spec es).holds 0 = .moved ∧ (spec es).holds 1 = .of 0 ∧
    gave (St.run false left es) 0 = [.val (left 5)] ∧
    es = [.create 0 0, .body 0 (.ret 5), .moveC 0 1, .await 0 0 0] :=
  ⟨[.create 0 0, .body 0 (.ret 5), .moveC 0 1, .await 0 0 0], ⟨rfl, rfl, rfl, rfl, trivial⟩, rfl, rfl, rfl, rfl, rfl⟩

/-- A generator is moved while it is awaited: the await ends with the error that the
generator was moved from when the body yields. The value goes to the next await. -/
theorem C83_awaited_violated (left : Nat → Nat) : ∃ es, Legal { left := left } es ∧ (St.run false left es).ub = false ∧
    gave (St.run false left es) 0 = [.err .movedFrom] ∧ gave (St.run false left es) 1 = [.val 5] ∧
    es = [.create 0 0, .await 0 0 0, .moveC 0 1, .body 0 (.yield 5), .await 1 1 0] :=
  ⟨[.create 0 0, .await 0 0 0, .moveC 0 1, .body 0 (.yield 5), .await 1 1 0], ⟨rfl, rfl, rfl, rfl, rfl, trivial⟩, rfl, rfl, rfl, rfl⟩

/-- If the object it was moved from is destroyed before, the await uses it nevertheless. -/
theorem C83_dangling_violated (left : Nat → Nat) : ∃ es, Legal { left := left } es ∧ (St.run false left es).ub = true ∧
    es = [.create 0 0, .await 0 0 0, .moveC 0 1, .drop 0, .body 0 (.yield 5)] :=
  ⟨[.create 0 0, .await 0 0 0, .moveC 0 1, .drop 0, .body 0 (.yield 5)], ⟨rfl, rfl, rfl, rfl, rfl, trivial⟩, rfl, rfl⟩

end Cobalt.Gen.Move
