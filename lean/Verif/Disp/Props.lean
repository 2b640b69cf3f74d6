import Verif.Disp.Room
import Verif.Chan.ExactProps
/-!
# C101: a loop that races a generator against a channel

`co_await race(rd, subc.read())` in a loop, the dispatcher of doc/tutorial/ticker.adoc.
-/
namespace Cobalt.Disp
open Cobalt.Chan (delivered)

/-- **C101**, the messages: whatever is written, cancelled and drawn, every message that the generator yields is given to the
loop, once and in order, or is still held by the generator. -/
theorem C101_msgs (cap : Nat) (es : List E) (hr : (St.exec cap es).race = none) :
    (St.exec cap es).yields = msgs (St.exec cap es).out ++ (St.exec cap es).gen.result.toList := by
  obtain ⟨c, h | ⟨swap, cs, h⟩ | ⟨swap, cs, m, h⟩⟩ := Inv.exec cap es
  · obtain ⟨res, hg, hy⟩ := h.gen
    rw [hg.result]; exact hy
  · rw [h.race] at hr; cases hr
  · rw [h.race] at hr; cases hr

/-- **C101**: there is no undefined behaviour, and every round ends with a message or a subscription. -/
theorem C101_defined (cap : Nat) (es : List E) :
    (St.exec cap es).ch.ub = false ∧ (St.exec cap es).gen.ub = false ∧ Res.failed ∉ (St.exec cap es).out := by
  obtain ⟨c, h⟩ := Inv.exec cap es
  refine ⟨h.ub.1.ub, h.ub.2, ?_⟩
  rcases h with h | ⟨swap, cs, h⟩ | ⟨swap, cs, m, h⟩
  · exact h.d.nof
  · exact h.d.nof
  · rcases h.ph with ⟨-, h⟩ | ⟨w, -, h⟩
    · exact h.nof
    · exact h.nof

/-- **C101**, the subscriptions: the loop is given some of those that were read, once and in order; the others are as many as
were stolen by messages. -/
theorem C101_count (cap : Nat) (es : List E) (hr : (St.exec cap es).race = none) :
    List.Sublist (subs (St.exec cap es).out) (delivered (St.exec cap es).ch.log) ∧
    (delivered (St.exec cap es).ch.log).length =
      (subs (St.exec cap es).out).length + stolen { ch := Chan.St.init cap } es := by
  obtain ⟨c, h | ⟨swap, cs, h⟩ | ⟨swap, cs, m, h⟩⟩ := Inv.exec cap es
  · exact ⟨h.d.sl, h.d.len⟩
  · rw [h.race] at hr; cases hr
  · rw [h.race] at hr; cases hr

/-- **C101**, exactly: between two rounds nothing has been lost if and only if no assertion of the channel has failed (C05) and
no subscription was stolen by a message. -/
theorem C101_exact (cap : Nat) (es : List E) (hr : (St.exec cap es).race = none) :
    NoLoss (St.exec cap es) ↔
      (St.exec cap es).ch.asserted = false ∧ stolen { ch := Chan.St.init cap } es = 0 := by
  have hm := C101_msgs cap es hr
  obtain ⟨hs, hl⟩ := C101_count cap es hr
  obtain ⟨c, h | ⟨swap, cs, h⟩ | ⟨swap, cs, m, h⟩⟩ := Inv.exec cap es
  · have hin : ∀ w, ¬ (St.exec cap es).ch.inHand w := by
      rintro w ⟨i, h1, -⟩; exact h.free.no i h1
    have tk := h.ci.tk
    constructor
    · intro hn
      obtain ⟨-, hn⟩ := hn hr
      constructor
      · rcases ha : (St.exec cap es).ch.asserted with _ | _
        · rfl
        · exfalso
          obtain ⟨fs, hf⟩ := h.ci.ex
          have hu := h.ci.ub
          rw [hf] at hu ha
          obtain ⟨w, h1, h2, h3, -⟩ := (Chan.C05_exact _ fs hu).2 ha
          rw [← hf] at h1 h2 h3
          rcases hn w h1 with h4 | h4
          · exact h3 (hs.subset h4)
          · exact h2 h4
      · apply Classical.byContradiction
        intro hk
        have : delivered (St.exec cap es).ch.log ⊆ subs (St.exec cap es).out := by
          intro w hw
          rcases hn w (tk.srcD w hw) with h4 | h4
          · exact h4
          · exact absurd hw (tk.bufD w h4)
        have := (List.Nodup.subperm tk.ndD this).length_le
        omega
    · rintro ⟨ha, hk⟩ -
      refine ⟨hm, fun w hw => ?_⟩
      rw [hk, Nat.add_zero] at hl
      rw [hs.eq_of_length hl.symm]
      rcases tk.keep ha w hw with h1 | h1 | h1
      · exact Or.inr h1
      · exact Or.inl h1
      · exact absurd h1 (hin w)
  · rw [h.race] at hr; cases hr
  · rw [h.race] at hr; cases hr

/-- **C101** holds if the race is never awaited while a session waits, and the channel does not overwrite (C05). -/
theorem C101_partial (cap : Nat) (es : List E) (hc : Calm { ch := Chan.St.init cap } es)
    (ha : (St.exec cap es).ch.asserted = false) : NoLoss (St.exec cap es) := by
  intro hr
  exact (C101_exact cap es hr).2 ⟨ha, (Inv.init cap).calm es hc⟩ hr

/-- **C101** holds if the limit of the channel is not less than the number of subscriptions. -/
theorem C101_room (cap : Nat) (es : List E) (hc : es.count .sub ≤ cap) : NoLoss (St.exec cap es) := by
  have h := calm_room (Inv.init cap) (n := 0) (cap := cap) ⟨rfl, rfl⟩ es (by omega)
  exact C101_partial cap es h.1 h.2

/-- The session 0 is told that its subscription was taken, and the loop does not get it: a message is there already and the
read is started first, -/
abbrev stolenReady : List E := [.sub, .yield 7, .go true false, .run 0]

/-- or the message comes before the read is resumed. -/
abbrev stolenLate : List E := [.sub, .go false false, .yield 7, .run 0]

/-- The same with a limit of 1, where two more sessions wait: subscription 2 is taken over by the read of the second round,
which loses against a message. -/
abbrev stolenBuffered : List E := [.sub, .sub, .sub, .go true false, .yield 7, .go true false, .run 1]

/-- **C101** does not hold. -/
theorem C101_violated : ¬ C101 ∧
    (∀ es ∈ [stolenReady, stolenLate], (St.exec 0 es).race = none ∧ (St.exec 0 es).out = [.msg 7] ∧
      Taken (St.exec 0 es) 0 ∧ (St.exec 0 es).ch.buf = []) ∧
    ((St.exec 1 stolenBuffered).race = none ∧ (St.exec 1 stolenBuffered).out = [.sub 0, .msg 7] ∧
      Taken (St.exec 1 stolenBuffered) 2 ∧ (St.exec 1 stolenBuffered).ch.buf = []) := by
  have h : ∀ es ∈ [stolenReady, stolenLate], (St.exec 0 es).race = none ∧ (St.exec 0 es).out = [.msg 7] ∧
      Taken (St.exec 0 es) 0 ∧ (St.exec 0 es).ch.buf = [] := by
    intro es hes
    simp only [List.mem_cons, List.not_mem_nil, or_false] at hes
    rcases hes with rfl | rfl
    · exact ⟨by decide, by decide, Or.inr (by decide), by decide⟩
    · exact ⟨by decide, by decide, Or.inr (by decide), by decide⟩
  refine ⟨fun hc => ?_, h, by decide, by decide, Or.inr (by decide), by decide⟩
  obtain ⟨h1, h2, h3, h4⟩ := h stolenReady (by simp)
  rcases (hc 0 stolenReady h1).2 0 h3 with h5 | h5
  · rw [h2] at h5; simp [subs] at h5
  · rw [h4] at h5; simp at h5

/-- Messages and subscriptions in turn, with a limit of 2: nothing is lost. -/
example : let es : List E := [.sub, .go true false, .yield 1, .go false false, .resume, .go true false, .yield 2, .sub, .go false false]
    (St.exec 2 es).race = none ∧ es.count .sub ≤ 2 ∧ Calm { ch := Chan.St.init 2 } es ∧ (St.exec 2 es).ch.asserted = false ∧
      (St.exec 2 es).out = [.sub 0, .msg 1, .msg 2, .sub 1] := by decide

/-- With a limit of 1 the channel overwrites a subscription (C05); none is stolen. -/
example : let es : List E := [.sub, .sub, .go true false, .sub, .run 0]
    (St.exec 1 es).race = none ∧ (St.exec 1 es).ch.asserted = true ∧ stolen { ch := Chan.St.init 1 } es = 0 := by decide

end Cobalt.Disp
