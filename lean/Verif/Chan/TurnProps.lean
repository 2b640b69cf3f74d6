import Verif.Chan.Turn
import Verif.Chan.ExactProps
/-!
# C05: producers and consumers that take turns
-/
namespace Cobalt.Chan

/-- **C05** for any number of producers and consumers, with cancelled and interrupted operations and transactions, as
long as the channel is open and they take turns: nobody begins an operation while another one was woken and has not been
resumed yet. Then no value that was taken over is lost, a woken read finds a value and a woken write finds a place.

Missing for the full property: without turns it is false (`C05_value_lost`, `C05_woken_reader_finds_nothing`). -/
theorem C05_turns_partial (cap : Nat) (es : List Ev) (hs : Turns (St.init cap) es)
    (ho : (exec cap es).closed = false) (hu : (exec cap es).ub = false) :
    (∀ w, ¬ (exec cap es).Lost w) ∧
    (∀ i, Tok.r i ∈ (exec cap es).posted → ((exec cap es).R i).cancelled = false →
      ((exec cap es).R i).direct ≠ none ∨ (exec cap es).buf ≠ []) ∧
    (∀ i, Tok.w i ∈ (exec cap es).posted → ((exec cap es).W i).cancelled = false →
      ((exec cap es).W i).direct = true ∨ (exec cap es).buf.length < cap) := by
  have k : T (exec cap es) := turns_steps (WF.init cap) (T.init cap) es hs ho hu
  refine ⟨fun w hw => ?_, fun i hi hc => ?_, fun i hi hc => ?_⟩
  · have := (C05_exact cap es hu).1 ⟨w, hw⟩
    rw [k.fine] at this; cases this
  · cases hd : ((exec cap es).R i).direct with
    | none => exact Or.inr (k.pr i ⟨hi, hc⟩ hd)
    | some d => exact Or.inl (by simp)
  · cases hd : ((exec cap es).W i).direct with
    | true => exact Or.inl rfl
    | false =>
      have := k.pw i ⟨hi, hc⟩ hd
      rw [exec_cap] at this
      exact Or.inr this

/-- **C05**, the remaining hypothesis: if interrupted operations are destroyed at once (see C09) and everybody takes
turns, nothing undefined happens, with any number of producers and consumers. -/
theorem C05_turns_defined_partial (cap : Nat) (es : List Ev) (hs : Turns (St.init cap) es) (ht : Tidy (St.init cap) es)
    (ho : (exec cap es).closed = false) : (exec cap es).ub = false := by
  suffices ∀ l : List Ev, Turns (St.init cap) l.reverse → Tidy (St.init cap) l.reverse →
      (exec cap l.reverse).closed = false → (exec cap l.reverse).ub = false by
    have h := this es.reverse
    rw [List.reverse_reverse] at h
    exact h hs ht ho
  clear hs ht ho es
  intro l
  induction l with
  | nil => intro _ _ _; rfl
  | cons e l ih =>
    rw [List.reverse_cons]
    generalize l.reverse = es at *
    intro hs ht ho
    have hs' := turns_snoc es e _ hs
    obtain ⟨ht', hl⟩ := tidy_snoc es e _ ht
    have ho' : (exec cap es).closed = false := by
      cases hx : (exec cap es).closed with
      | false => rfl
      | true => rw [(Rel.exec cap es [e]).closed hx] at ho; cases ho
    have hu := ih hs' ht' ho'
    have k : T (exec cap es) := turns_steps (WF.init cap) (T.init cap) es hs' ho' hu
    have es1 : exec cap (es ++ [e]) = (exec cap es).step e := by rw [exec_append]; rfl
    rw [es1]
    have hl' : (exec cap es).noStale ∨ e.isDrop = true := hl
    rcases hl' with hn | hd
    · have sr : ¬ StaleR (exec cap es) := by
        rintro ⟨j, h1, h2⟩
        have := hn.1 j (List.mem_of_mem_head? h1)
        rw [h2] at this; cases this
      have sw : ¬ StaleW (exec cap es) := by
        rintro ⟨j, h1, h2⟩
        have := hn.2 j (List.mem_of_mem_head? h1)
        rw [h2] at this; cases this
      apply Classical.byContradiction
      intro hb
      have hb : ((exec cap es).step e).ub = true := by simpa using hb
      by_cases h1 : ∃ n, e = .run n
      · obtain ⟨n, rfl⟩ := h1
        cases hp : (exec cap es).posted[n]? with
        | none =>
          have : (exec cap es).step (.run n) = exec cap es := by simp [St.step, hu, St.run, hp]
          rw [this, hu] at hb; cases hb
        | some t =>
          cases t with
          | r i =>
            obtain ⟨c1, c2⟩ := (C05_woken_read_exact cap es hu n i hp).1 hb
            rcases c2 with ⟨c2, c3, -⟩ | ⟨c2, -⟩
            · exact k.pr i ⟨List.mem_of_getElem? hp, c1⟩ c3 c2
            · exact sw c2
          | w i => exact sr ((C05_woken_write_exact cap es hu n i hp).1 hb).2.1
      · by_cases h2 : ∃ i c x l, e = .awaitR i c x l
        · obtain ⟨i, c, x, l, rfl⟩ := h2
          by_cases hf : ((exec cap es).R i).status = .fresh
          · exact sw ((C09_read_exact cap es hu i hf c x l).1 hb).2
          · have : (exec cap es).step (.awaitR i c x l) = exec cap es := by simp [St.step, hu, St.awaitR, hf]
            rw [this, hu] at hb; cases hb
        · by_cases h3 : ∃ i c x l, e = .awaitW i c x l
          · obtain ⟨i, c, x, l, rfl⟩ := h3
            by_cases hf : ((exec cap es).W i).status = .fresh
            · exact sr ((C09_write_exact cap es hu i hf c x l).1 hb).2
            · have : (exec cap es).step (.awaitW i c x l) = exec cap es := by simp [St.step, hu, St.awaitW, hf]
              rw [this, hu] at hb; cases hb
          · rw [C05_ub_only cap es hu e (fun n h => h1 ⟨n, h⟩) (fun i c x l h => h2 ⟨i, c, x, l, h⟩)
              (fun i c x l h => h3 ⟨i, c, x, l, h⟩)] at hb
            cases hb
    · refine C05_ub_only cap es hu e ?_ ?_ ?_ <;> (intros; rintro rfl; cases hd)

/-- Three producers and two consumers; two producers wait, and the first of them has just been woken again. -/
def turns3 : List Ev :=
  [.mkW, .awaitW 0 true false [], .mkW, .awaitW 1 true false [], .mkW, .awaitW 2 true false [],
   .mkR, .awaitR 0 true false [], .run 0, .mkR, .awaitR 1 true false []]

example : Turns (St.init 1) turns3 ∧ Tidy (St.init 1) turns3 ∧ (exec 1 turns3).closed = false ∧ (exec 1 turns3).ub = false ∧
    delivered (exec 1 turns3).log = [0, 1] ∧ (exec 1 turns3).posted = [.w 2] ∧
    ((exec 1 turns3).W 2).cancelled = false ∧ ((exec 1 turns3).W 2).direct = false := by decide

/-- The schedule in which a value is lost is one without turns. -/
example :
    let es := [Ev.mkW, .awaitW 0 true false [], .mkW, .awaitW 1 true false [], .mkR, .awaitR 0 true false [],
      .mkW, .awaitW 2 true false [], .run 0]
    ¬ Turns (St.init 1) es ∧ (exec 1 es).ub = false ∧ (exec 1 es).asserted = true := by decide

end Cobalt.Chan
