import Verif.Same.Run
import Verif.Chan.PropsOrder
/-!
# C135: `channel<void>` is `channel<T>` without the values

`channel<void>` (src/channel.cpp, impl/channel.hpp:337-424) is a second implementation of the channel, with a counter
in place of the ring buffer. `Same.empty` takes the values out of a `channel<T>` and leaves everything else: which
operations wait and in which order, what is posted to the executor, and how every operation ended.
-/
namespace Cobalt.Same

/-- **C135** (any limit, any number of readers and writers, cancelled and interrupted ones and transactions included):
whatever is done to the two channels, as long as a `channel<T>` stays open, fails no assertion and does nothing
undefined, a `channel<void>` with the same limit is at every moment that channel without its values.

Missing for the full property: the two differ after `close` (`C135_violated_close`), and where `channel<T>` asserts or
is undefined (`C135_violated_two_readers`, `C135_violated_late_write`). -/
theorem C135_lockstep_partial {cap : Nat} (h : cap < 2 ^ 64) (es : List Chan.Ev) (g : Good (Chan.exec cap es)) :
    VChan.exec (BitVec.ofNat 64 cap) (es.map ev) = empty (Chan.exec cap es) :=
  (exec_both h g).1

/-- **C135**, what the coroutines see: the same operations end, in the same order and with the same results. -/
theorem C135_results_partial {cap : Nat} (h : cap < 2 ^ 64) (es : List Chan.Ev) (g : Good (Chan.exec cap es)) :
    (VChan.exec (BitVec.ofNat 64 cap) (es.map ev)).log = (Chan.exec cap es).log.filterMap seen1 := by
  rw [C135_lockstep_partial h es g]; rfl

/-- Everything that can be done to a `channel<void>` can be done to a `channel<T>`, so `C135_lockstep_partial` speaks
about every history of a `channel<void>`. -/
theorem C135_onto (es : List VChan.Ev) : ∃ es' : List Chan.Ev, es'.map ev = es := by
  induction es with
  | nil => exact ⟨[], rfl⟩
  | cons e es ih =>
    obtain ⟨es', rfl⟩ := ih
    obtain ⟨e', rfl⟩ := ev_onto e
    exact ⟨e' :: es', rfl⟩

/-- **C135**: they are still the same directly after `close`. -/
theorem C135_close {cap : Nat} (h : cap < 2 ^ 64) (es : List Chan.Ev) (g : Good (Chan.exec cap es)) :
    VChan.exec (BitVec.ofNat 64 cap) (es.map ev ++ [.close]) = empty (Chan.exec cap (es ++ [.close])) := by
  have e1 : Chan.exec cap (es ++ [.close]) = (Chan.exec cap es).close := by
    have : (Chan.exec cap es).step .close = (Chan.exec cap es).close := by simp [Chan.St.step, g.ub]
    simpa [Chan.exec, Chan.St.steps] using this
  have hv := C135_lockstep_partial h es g
  have e2 : VChan.exec (BitVec.ofNat 64 cap) (es.map ev ++ [.close]) =
      (VChan.exec (BitVec.ofNat 64 cap) (es.map ev)).close := by
    have hu : (VChan.exec (BitVec.ofNat 64 cap) (es.map ev)).ub = false := by rw [hv]; exact g.ub
    have : (VChan.exec (BitVec.ofNat 64 cap) (es.map ev)).step .close =
        (VChan.exec (BitVec.ofNat 64 cap) (es.map ev)).close := by simp [VChan.St.step, hu]
    simpa [VChan.exec, VChan.St.steps] using this
  rw [e1, e2, hv, close_eq]

/-- **C135** for one producer and one consumer and any limit: under the conditions of C02 and without `close` the two
are always the same. -/
theorem C135_one_one {cap : Nat} (h : cap < 2 ^ 64) (es : List Chan.Ev) (ht : Chan.Tidy (Chan.St.init cap) es)
    (hp : Chan.Prompt (Chan.St.init cap) es) (hs : Chan.Spsc (Chan.St.init cap) es) (hc : Chan.Ev.close ∉ es) :
    VChan.exec (BitVec.ofNat 64 cap) (es.map ev) = empty (Chan.exec cap es) :=
  have hu := Chan.C02_no_ub_partial cap es ht hp hs
  C135_lockstep_partial h es ⟨hu, (Chan.C02_fifo_partial cap es hp hs hu).1, closed_exec cap es hc⟩

/-- **C135** for limit 0 and any number of readers and writers: under the conditions of C01 and without `close` the two
are always the same. -/
theorem C135_rendezvous (es : List Chan.Ev) (ht : Chan.Tidy (Chan.St.init 0) es)
    (hp : Chan.Prompt (Chan.St.init 0) es) (hc : Chan.Ev.close ∉ es) :
    VChan.exec 0 (es.map ev) = empty (Chan.exec 0 es) :=
  have hu := Chan.C01_no_ub_partial es ht
  C135_lockstep_partial (cap := 0) (by decide) es ⟨hu, (Chan.C01_rendezvous_partial es hp hu).1, closed_exec 0 es hc⟩

/-- A full channel with limit 1, a waiting writer, two reads, a cancelled third. -/
def busy : List Chan.Ev :=
  [.mkW, .awaitW 0 true false [], .mkW, .awaitW 1 true false [], .mkR, .awaitR 0 true false [], .run 0,
   .mkR, .awaitR 1 true false [], .mkR, .awaitR 2 true false [], .cancelR 2, .run 0]

/-- The hypotheses hold for it, and it does something. -/
example : Chan.Tidy (Chan.St.init 1) busy ∧ Chan.Prompt (Chan.St.init 1) busy ∧ Chan.Ev.close ∉ busy ∧
    (Chan.exec 1 busy).ub = false ∧ (Chan.exec 1 busy).asserted = false ∧
    (VChan.exec 1 (busy.map ev)).log =
      [.doneW 0 .ok, .doneR 0 .ok, .doneW 1 .ok, .doneR 1 .ok, .doneR 2 .aborted] := by decide

/-- Two readers and two writers at limit 0, a third writer cancelled. -/
def meet : List Chan.Ev :=
  [.mkR, .awaitR 0 true false [], .mkR, .awaitR 1 true false [], .mkW, .awaitW 0 true false [], .run 0,
   .mkW, .awaitW 1 true false [], .mkW, .awaitW 2 true false [], .cancelW 2, .run 0, .run 0]

example : Chan.Tidy (Chan.St.init 0) meet ∧ Chan.Prompt (Chan.St.init 0) meet ∧ Chan.Ev.close ∉ meet ∧
    (VChan.exec 0 (meet.map ev)).log = (Chan.exec 0 meet).log.filterMap seen1 ∧
    (VChan.exec 0 (meet.map ev)).log.length = 5 := by decide

/-- **C135 is violated** after `close`: of a value written before, `channel<T>` gives it to the next read and
`channel<void>` answers `broken_pipe`. -/
theorem C135_violated_close :
    let es : List Chan.Ev := [.mkW, .awaitW 0 true false [], .close, .mkR, .awaitR 0 true false []]
    (Chan.exec 1 es).log.filterMap seen1 = [.doneW 0 .ok, .doneR 0 .ok] ∧
    (VChan.exec 1 (es.map ev)).log = [.doneW 0 .ok, .doneR 0 .brokenPipe] := by decide

/-- **C135 is violated** with two readers: a reader that was woken finds nothing since another was faster.
`channel<T>` moves from an empty optional, `channel<void>` counts below zero and reports success. -/
theorem C135_violated_two_readers :
    let es : List Chan.Ev := [.mkR, .awaitR 0 true false [], .mkW, .awaitW 0 true false [], .mkR,
      .awaitR 1 true false [], .run 0]
    (Chan.exec 1 es).ub = true ∧ (VChan.exec 1 (es.map ev)).ub = false ∧
    (VChan.exec 1 (es.map ev)).n = -1 := by decide

/-- **C135 is violated** with two writers: a writer that was woken finds the buffer full since another was faster.
`channel<T>` fails an assertion, `channel<void>` counts beyond the limit. -/
theorem C135_violated_late_write :
    let es : List Chan.Ev := [.mkW, .awaitW 0 true false [], .mkW, .awaitW 1 true false [], .mkR,
      .awaitR 0 true false [], .mkW, .awaitW 2 true false [], .run 0]
    (Chan.exec 1 es).asserted = true ∧ (VChan.exec 1 (es.map ev)).asserted = false ∧
    (VChan.exec 1 (es.map ev)).n = 2 := by decide

end Cobalt.Same
