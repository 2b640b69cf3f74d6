import Verif.Chan.ForLemmas
/-! Property C54: `BOOST_COBALT_FOR` over a channel reader. -/
namespace Cobalt.Chan

/-- **C54 is violated**: two values are written and accepted, the channel is
closed before the loop tests it; the loop ends normally without having seen a
value. -/
theorem C54_buffered_values_skipped :
    ∃ es, (loop 2 es).phase = .finished ∧ accepted (loop 2 es).s.log = [0, 1] ∧
      (loop 2 es).seen = [] ∧ (loop 2 es).s.buf = [0, 1] :=
  ⟨[.other .mkW, .other (.awaitW 0 true false []), .other .mkW, .other (.awaitW 1 true false []),
    .other .close, .turn true], by decide⟩

/-- **C54 is violated**, second way: the loop does not even see values in the
buffer when the close comes while its body runs. -/
theorem C54_close_in_body :
    ∃ es, (loop 2 es).phase = .finished ∧ accepted (loop 2 es).s.log = [0, 1] ∧
      (loop 2 es).seen = [0] :=
  ⟨[.other .mkW, .other (.awaitW 0 true false []), .other .mkW, .other (.awaitW 1 true false []),
    .turn true, .other .close, .turn true], by decide⟩

/-- **C54** (the part that holds). Full statement: when the loop has ended,
`seen` is the list of accepted values. Proved for every schedule of one producer
and the loop (`LProg`): what the body has seen is an initial part of what the
channel accepted, in order, each once; what is missing is exactly the buffer and
the value already on its way to the loop. So the property holds whenever the
channel is closed with an empty buffer. -/
theorem C54_seen_prefix_partial (cap : Nat) (es : List LEv) (hp : LProg { s := St.init cap } es) :
    (loop cap es).s.ub = false ∧
    ∃ hand, hand.length ≤ 1 ∧ (∀ w, w ∈ hand ↔ (loop cap es).s.inHand w) ∧
      (loop cap es).seen ++ (loop cap es).s.buf ++ hand = (loop cap es).s.taken := by
  have li := LI.loop es _ (LI.init cap) hp
  obtain ⟨hand, h1, h2, h3⟩ := li.j.split
  refine ⟨li.j.ub, hand, h1, h2, ?_⟩
  unfold loop
  rw [li.seen]
  exact h3

/-- **C54** exactly: a loop that has ended has left what is in the buffer, and nothing else. The
body ran for all the values the channel has taken over exactly if the buffer is empty. -/
theorem C54_exact (cap : Nat) (es : List LEv) (hp : LProg { s := St.init cap } es)
    (hend : (loop cap es).phase = .finished ∨ (loop cap es).phase = .thrown) :
    (loop cap es).seen ++ (loop cap es).s.buf = (loop cap es).s.taken ∧
    ((loop cap es).seen = (loop cap es).s.taken ↔ (loop cap es).s.buf = []) := by
  have li := LI.loop es _ (LI.init cap) hp
  obtain ⟨-, hand, -, h2, h3⟩ := C54_seen_prefix_partial cap es hp
  have : hand = [] := by
    rw [List.eq_nil_iff_forall_not_mem]
    intro w hw
    obtain ⟨i, hi, -⟩ := (h2 w).1 hw
    have hlt : i < (loop cap es).s.nextR := by
      rcases Nat.lt_or_ge i (loop cap es).s.nextR with h1 | h1
      · exact h1
      · have := li.h.rnew i h1
        unfold loop at hi; rw [this] at hi; cases hi
    rcases li.all i hlt with h4 | h4
    · unfold loop at hend; rw [h4] at hend; simp at hend
    · obtain ⟨r, hr⟩ := (mem_endedR _ _).1 h4
      have := li.t.endR i r hr
      unfold loop at hi; rw [hi] at this; simp at this
  rw [this, List.append_nil] at h3
  refine ⟨h3, fun h => ?_, fun h => by rw [h, List.append_nil] at h3; exact h3⟩
  rw [← h] at h3
  simpa using h3

/-- **C54** (the part that holds), consequence: the loop has ended, the buffer is
empty: the body ran exactly for the accepted values, in order. Missing: a buffer
that is not empty when the channel is closed. -/
theorem C54_all_seen_partial (cap : Nat) (es : List LEv) (hp : LProg { s := St.init cap } es)
    (hend : (loop cap es).phase = .finished ∨ (loop cap es).phase = .thrown)
    (hb : (loop cap es).s.buf = []) : (loop cap es).seen = (loop cap es).s.taken :=
  (C54_exact cap es hp hend).2.2 hb

/-- A loop that waits for each of two values of a rendezvous channel and is ended
by `close`. -/
def loopSched : List LEv :=
  [.turn true, .other .mkW, .other (.awaitW 0 true false []), .other (.run 0),
   .other .mkW, .other (.awaitW 1 true false []), .turn true, .other (.run 0), .turn true,
   .other .close, .other (.run 0)]

example : (loop 0 loopSched).seen = [0, 1] ∧ (loop 0 loopSched).phase = .thrown ∧
    accepted (loop 0 loopSched).s.log = [0, 1] ∧ (loop 0 loopSched).s.buf = [] := by decide

example : LProg { s := St.init 0 } loopSched := by
  simp only [loopSched, LProg, and_true]
  refine ⟨?_, ⟨?_, ?_, ?_, ?_⟩, ⟨?_, ?_, ?_, ?_, ?_⟩, ⟨?_, ?_, ?_, ?_⟩, ⟨?_, ?_, ?_, ?_⟩, ⟨?_, ?_, ?_, ?_, ?_⟩, ?_, ⟨?_, ?_, ?_, ?_⟩, ?_, ⟨?_, ?_, ?_, ?_⟩, ⟨?_, ?_, ?_, ?_⟩⟩
  all_goals first
    | decide
    | trivial
    | exact ⟨trivial, trivial⟩
    | (intro i; rcases i with _ | _ | _ | i <;> first | decide | exact fun h => by cases h)

end Cobalt.Chan
