import Verif.Tmo.Quick
/-! # C100: a read raced against a timer again and again loses nothing

doc/design/race.adoc names `race` the preferred way to trigger cancellations and shows `race(timeout(), work())`.
It holds if the read is run by a promise that is kept from round to round (`C100_kept`), because a promise is
interrupted and goes on. It does not for the operation itself: what a cancelled one has taken by then is gone
(`C100_violated`). `io::read` is not even cancelled (C56), so the race ends when the buffer is full, and then
drops it (`C100_deaf_waits`, `C100_buffer_violated`). -/
namespace Cobalt.Tmo

/-- Messages are lost exactly if a race ends with the wait and the operation has taken some. -/
theorem C100_exact (c : Cfg) (es : List E) (hr : (St.exec c es).race = none) :
    arrived es = got (St.exec c es).out ++ (if c.kept then (St.exec c es).buf else []) ++ (St.exec c es).inp ↔
      dropped c {} es = [] := by
  have h := inv_exec c es
  cases h with
  | both h1 => rw [hr] at h1; simp at h1
  | read h1 => rw [hr] at h1; simp at h1
  | wait h1 => rw [hr] at h1; simp at h1
  | idle h1 h2 h3 =>
    have hb : (if c.kept then (St.exec c es).buf else []) = (St.exec c es).buf := by
      cases hk : c.kept with
      | true => rfl
      | false =>
        simp only [Idle, hk, Bool.false_eq_true, false_and, or_false] at h2
        simp [h2.2.2.1]
    rw [hb]
    constructor
    · intro h
      have h4 := h3.1
      rw [h] at h4
      simp only [List.length_append] at h4
      exact List.eq_nil_of_length_eq_zero (by omega)
    · exact h3.2

/-- As many as were dropped are missing. -/
theorem C100_count (c : Cfg) (es : List E) (hr : (St.exec c es).race = none) :
    (arrived es).length = (got (St.exec c es).out).length + (St.exec c es).buf.length + (St.exec c es).inp.length +
      (dropped c {} es).length := by
  have h := inv_exec c es
  cases h with
  | both h1 => rw [hr] at h1; simp at h1
  | read h1 => rw [hr] at h1; simp at h1
  | wait h1 => rw [hr] at h1; simp at h1
  | idle h1 h2 h3 => exact h3.1

/-- Nothing is lost with a promise that is kept, -/
theorem C100_kept {c : Cfg} (hk : c.kept = true) (es : List E) : NoLoss c es :=
  fun hr => (C100_exact c es hr).2 (dropped_kept hk es {})

/-- nor by `read_some` if the message is taken in one go with the call of the handler. -/
theorem C100_partial {c : Cfg} (hn : c.need = 1) (hd : c.deaf = false) {es : List E}
    (ho : c.kept = false → OneGo c {} es) : NoLoss c es := by
  cases hk : c.kept with
  | true => exact C100_kept hk es
  | false =>
    intro hr
    exact (C100_exact c es hr).2 (dropped_one hk hd hn es (Inv.init c) (calm_of_buf rfl) (ho hk))

/-- The message is taken, but the handler of the timer is first in the queue. -/
theorem C100_violated : ¬ C100 := by
  intro h
  have := h {} (by decide) [.go false false false false, .arrive 1, .expire, .take, .run, .run] (by rfl)
  exact absurd this (by decide)

/-- `io::read` goes on although the wait has won, fills its buffer, and then the messages are dropped. -/
theorem C100_buffer_violated :
    ¬ ∀ es, OneGo { need := 2, deaf := true } {} es → NoLoss { need := 2, deaf := true } es := by
  intro h
  have := h [.go false false false false, .expire, .run, .arrive 1, .take, .run, .arrive 2, .take, .run]
    (by simp only [OneGo]; decide) (by rfl)
  exact absurd this (by decide)

/-- Until then the race does not end: after the timer has expired and its handler was called, nothing but the arrival
of messages helps. -/
theorem C100_deaf_waits {c : Cfg} (hk : c.kept = false) (hd : c.deaf = true) (d : Bool) (es : List E)
    (ha : ∀ e ∈ es, ∀ m, e ≠ .arrive m) :
    (St.exec c ([.go false false false d, .expire, .run] ++ es)).race ≠ none := by
  have h0 : ∃ w cs, (St.exec c [.go false false false d, .expire, .run]).race = some (w, cs) ∧ W 1 0 cs ∧
      (St.exec c [.go false false false d, .expire, .run]).inp = [] ∧
      (St.exec c [.go false false false d, .expire, .run]).queue = [] ∧
      (St.exec c [.go false false false d, .expire, .run]).tm = .off := by
    obtain ⟨cs, h1, h2⟩ := goBoth hk false d false (s := {}) (by simp)
    obtain ⟨cs', h3, h4⟩ := fin1 hk (swap := false)
      (s := { ({} : St) with rd := .pending, queue := [], tm := .off, race := some (false, cs) }) h1
    have he : St.exec c [.go false false false d, .expire, .run] =
        { ({} : St) with rd := .pending, race := some (false, cs') } := by
      simp only [St.exec, List.foldl_cons, List.foldl_nil, St.step, hk, Bool.false_eq_true, false_and, if_false]
      rw [h2]
      simp only [if_true, List.nil_append, h1.c1]
      rw [h4]
      simp [St.cancel, hd]
    rw [he]
    exact ⟨_, _, rfl, h3, rfl, rfl, rfl⟩
  rw [St.exec, List.foldl_append]
  change (es.foldl (St.step c) (St.exec c [.go false false false d, .expire, .run])).race ≠ none
  generalize St.exec c [.go false false false d, .expire, .run] = s at h0
  obtain ⟨w, cs, h1, -, h3, h4, h5⟩ := h0
  have : ∀ es : List E, (∀ e ∈ es, ∀ m, e ≠ .arrive m) → es.foldl (St.step c) s = s := by
    intro es
    induction es with
    | nil => intro _; rfl
    | cons e es ih =>
      intro ha
      have he : s.step c e = s := by
        cases e with
        | arrive m => exact absurd rfl (ha _ (by simp) m)
        | go a b f d => simp [St.step, h1]
        | take => simp [St.step, St.take, h3]
        | expire => simp [St.step, h5]
        | run => simp [St.step, h4]
      rw [List.foldl_cons, he]
      exact ih fun e he => ha e (List.mem_cons_of_mem _ he)
  rw [this es ha, h1]
  simp

/-! Examples: the loop gets a message, then nothing in time, then the next message. -/

abbrev fine : List E :=
  [.go false false false false, .arrive 1, .take, .run, .run, .go true false false false, .expire, .run, .run,
   .arrive 2, .go true true false true, .run]

example : (St.exec {} fine).out = [.data [1], .timeout, .data [2]] ∧ (St.exec {} fine).race.isNone ∧
    dropped {} {} fine = [] := by decide

/-- With the promise the message that the operation would lose is there in the next round. -/
abbrev saved : List E :=
  [.go false false false false, .arrive 1, .expire, .take, .run, .run, .go false false false false]

example : (St.exec { kept := true } saved).out = [.timeout, .data [1]] := by decide

example : dropped {} {} [.go false false false false, .arrive 1, .expire, .take, .run, .run] = [1] := by decide

example : OneGo {} {} [.go false false false false, .arrive 1, .take, .run, .run] := by
  simp only [OneGo]
  decide

end Cobalt.Tmo
