import Verif.Gen.PushAll
/-!
# C31, exactly: which suspension point gets which pushed value

include/boost/cobalt/detail/generator.hpp:179-328 and 496-587.
-/
namespace Cobalt.Gen

/-- **C31**, exact for eager generators: in every possible history without undefined behaviour the k-th suspension
point of the body gives the value pushed with the k-th await *that ended with a value*. An await that was interrupted,
that came while another one was going on, or that gave an error, does not count, and its value is lost; there is at most
one value on its way. -/
theorem C31_exact (v : Bool) (es : List Ev) (hl : Legal { void := v } es) (hi : Ev.initial ∉ es)
    (hu : (St.run v es).ub = false) :
    (St.run v es).received.reverse ++ (St.run v es).pushed.toList = paid es (St.run v es) := by
  have h := EI.steps es (EI.init v) hl hi hu
  simp only [List.nil_append] at h
  refine h.eq.trans (filterMap_eq fun x _ => ?_)
  rcases x with ⟨a, g⟩
  cases g <;> rfl

/-- In particular the two halves of C31 for eager generators: what the body has received so far is what was pushed with
the first awaits that ended with a value. -/
theorem C31_kth (v : Bool) (es : List Ev) (hl : Legal { void := v } es) (hi : Ev.initial ∉ es)
    (hu : (St.run v es).ub = false) (k : Nat) (hk : k < (St.run v es).received.length) :
    (St.run v es).received.reverse[k]? = (paid es (St.run v es))[k]? := by
  rw [← C31_exact v es hl hi hu, List.getElem?_append_left (by simpa using hk)]

/-- **C31**, the accounts of every generator, eager or lazy: in every possible history without undefined behaviour
every pushed value is either a result of exactly one suspension point, or on its way to the next, or still in the
awaitable that pushed it. -/
theorem C31_account (v : Bool) (es : List Ev) (hl : Legal { void := v } es) (hu : (St.run v es).ub = false) :
    ((awaits es).map Prod.snd).Perm
      ((St.run v es).received ++ (St.run v es).pushed.toList ++ keptBy es (St.run v es)) := by
  have h := AI.steps es (AI.init v) hl hu
  simp only [List.nil_append] at h
  exact h.perm

/-- … and an await that ended with a value has handed over its own. -/
theorem C31_handed (v : Bool) (es : List Ev) (hl : Legal { void := v } es) (hu : (St.run v es).ub = false)
    (a : Nat) (w : Aw) (x : Nat) (ha : (St.run v es).aw a = some w) (hw : w.got = some (.val x)) : w.toPush = false := by
  have h := AI.steps es (AI.init v) hl hu
  simp only [List.nil_append] at h
  exact h.valh a w x ha hw

/-- An eager generator; one await is interrupted, one comes too early, then two give values. -/
def pushMess : List Ev :=
  [.await 0 10, .await 1 11, .interrupt 0, .yield 1, .await 2 12, .run, .yield 2, .await 3 13, .run]

example : Legal {} pushMess ∧ Ev.initial ∉ pushMess ∧ (St.run false pushMess).ub = false ∧
    paid pushMess (St.run false pushMess) = [12, 13] ∧ (St.run false pushMess).received = [13, 12] ∧
    keptBy pushMess (St.run false pushMess) = [10, 11] := by decide

/-- A lazy generator: the interrupted await has pushed its value. -/
def pushLazy : List Ev := [.initial, .await 0 10, .interrupt 0, .await 1 11, .yield 1, .await 2 12]

example : Legal {} pushLazy ∧ (St.run false pushLazy).ub = false ∧ (St.run false pushLazy).received = [11, 10] ∧
    (St.run false pushLazy).pushed = none ∧ keptBy pushLazy (St.run false pushLazy) = [12] := by decide

end Cobalt.Gen
