import Verif.Comb.LoopsStep
/-! # C13 and C59: when a combinator lets its awaiter go on

C13: the awaiter is resumed exactly once, when the last child is done, and does not
suspend if all children finish while being started. Proved for all runs without
undefined behaviour (`C13_resume_once`, `C13_instant`, `C13_all_done`), and runs are
without it if the combinator is not empty and completions are posted
(`C13_defined`). An empty `gather` or `join` is undefined (`C13_empty`). -/
namespace Cobalt.Comb

theorem C13_resume_once {c : Cfg} (hc : c.Ok) {es : List Ev} (hl : Legal c {} es) (hu : (St.run c es).ub = false) :
    (St.run c es).resumes ≤ 1 ∧
    ((St.run c es).resumes = 1 ↔ (St.run c es).phase = .resumed) ∧
    ((St.run c es).phase = .suspended → ∃ i, i < c.n ∧ ((St.run c es).child i).active = true) ∧
    ((St.run c es).over → ∀ i, ((St.run c es).child i).active = false) := by
  have h := (All.run hc hl hu).inv
  obtain ⟨l, h1, h2, h3⟩ := h.uses
  refine ⟨?_, ?_, fun hp => ?_, fun ho i => ?_⟩
  · rw [h.resumes]; split <;> omega
  · rw [h.resumes]; split <;> simp_all
  · have := h.susp hp
    cases l with
    | nil => simp at h3; exact absurd h3.symm this
    | cons a l =>
      have ha := (h2 a).1 (by simp)
      refine ⟨a, (hc.mem a).1 (h.known a ?_), ha⟩
      intro hx; rw [hx] at ha; simp [CS.active] at ha
  · have := h.over ho
    rw [this] at h3
    have hnil : l = [] := List.eq_nil_of_length_eq_zero h3
    cases hx : ((St.run c es).child i).active
    · rfl
    · have := (h2 i).2 hx
      rw [hnil] at this; simp at this

/-- A suspended awaiter is resumed in the very step in which the last child finishes. -/
theorem C13_instant {c : Cfg} (hc : c.Ok) {es : List Ev} {e : Ev} (hl : Legal c {} es)
    (hcan : (St.run c es).can c e = true) (hu : ((St.run c es).step c e).ub = false)
    (hs : (St.run c es).phase = .suspended) :
    ((St.run c es).step c e).phase = .resumed ↔ ∀ i, (((St.run c es).step c e).child i).active = false := by
  have hu0 : (St.run c es).ub = false := by
    cases hx : (St.run c es).ub
    · rfl
    · have : ((St.run c es).step c e).ub = true := by unfold St.step; rw [if_pos (by simp [hx])]; exact hx
      rw [hu] at this; simp at this
  have ha := All.run hc hl hu0
  have h := ha.inv
  have h' : Inv c ((St.run c es).step c e) ((St.run c es).step c e).tags := by
    rcases h.step hc e with h1 | h1
    · rw [hu] at h1; simp at h1
    · exact h1
  obtain ⟨l, h1, h2, h3⟩ := h'.uses
  constructor
  · intro hp i
    have := h'.over (Or.inl hp)
    rw [this] at h3
    have hnil : l = [] := List.eq_nil_of_length_eq_zero h3
    cases hx : (((St.run c es).step c e).child i).active
    · rfl
    · have := (h2 i).2 hx
      rw [hnil] at this; simp at this
  · intro hno
    have hnil : l = [] := by
      cases l with
      | nil => rfl
      | cons a l => have := (h2 a).1 (by simp); rw [hno a] at this; simp at this
    have h0 : ((St.run c es).step c e).uses = 0 := by rw [← h3, hnil]; rfl
    have hns : ((St.run c es).step c e).phase ≠ .suspended := fun hp => h'.susp hp h0
    have nostart : ∀ t ∈ (St.run c es).tags, t.isStart = false := by
      have := h.starts
      rw [if_neg (by rw [hs]; simp), List.countP_eq_zero] at this
      intro t ht; simpa using this t ht
    rcases step_shape c (St.run c es) e hu0 hcan with ⟨i, rfl⟩ | h4 | ⟨cur, s₀, h4, -, h5, h6⟩
    · have hh : (St.run c es).stack.head? = some (.asking i) := by simpa [St.can] using hcan
      have := nostart (.ask i) (by rw [tags_of_head hh]; simp [Frame.tag])
      simp [Tag.isStart] at this
    · rw [hu] at h4; simp at h4
    · have hgo : cur.isStart = false → ((St.run c es).step c e).phase = .resumed := by
        intro hcs
        by_cases hb : e = .begin
        · subst hb; simp [St.can, hs] at hcan
        · rcases h4.going hcs with h7 | h7
          · rw [h5 hb, hs] at h7; exact absurd h7 hns
          · exact h7.2
      cases e <;> simp only at h6
      case begin => simp [St.can, hs] at hcan
      case ready i o d =>
        have := nostart (.ask i) (by rw [h6.2]; simp); simp [Tag.isStart] at this
      case thrown i x d =>
        rcases h6.2 with h7 | h7
        · have := nostart (.ask i) (by rw [h7]; simp); simp [Tag.isStart] at this
        · have := nostart (.start i) (by rw [h7]; simp); simp [Tag.isStart] at this
      case fin i o => exact hgo (by rw [h6.1]; rfl)
      case txn i => exact hgo (by rw [h6.1]; rfl)
      case ret d =>
        rcases h6 with ⟨i, h7, -⟩ | ⟨co, h7, h8⟩
        · have := nostart (.start i) (by rw [h7]; simp); simp [Tag.isStart] at this
        · exact hgo (by rw [h8]; exact nostart _ (by rw [h7]; simp))
      case cancel ct => exact hgo (by rw [h6.1]; rfl)
      case interrupt => exact hgo (by rw [h6.1]; rfl)

/-- `gather` and `join` let the awaiter go on only after every awaitable completed;
`race` after every awaitable that was started did. -/
theorem C13_all_done {c : Cfg} (hc : c.Ok) {es : List Ev} (hl : Legal c {} es) (hu : (St.run c es).ub = false)
    (ho : (St.run c es).over) :
    (c.kind ≠ .race → ∀ i, i < c.n → (outcome es i).isSome = true) ∧
    (∀ i, Ev.notReady i ∈ es → (outcome es i).isSome = true) := by
  have ha := All.run hc hl hu
  have hact := (C13_resume_once hc hl hu).2.2.2 ho
  have key : ∀ i, (St.run c es).child i ≠ .idle → (outcome es i).isSome = true := by
    intro i hi
    rw [← ha.hist.ended i]
    have := hact i
    cases hx : (St.run c es).child i <;> simp_all [CS.active, CS.ended]
  constructor
  · intro hk i hi
    apply key
    intro hidle
    have hp : (St.run c es).phase ≠ .before := by rcases ho with h | h <;> rw [h] <;> simp
    have hps : (St.run c es).phase ≠ .starting := by rcases ho with h | h <;> rw [h] <;> simp
    have := ha.inv.all hk hp i ((hc.mem i).2 hi) hidle
    rw [ha.inv.todoEnd hk hps] at this
    simp at this
  · intro i hi
    apply key
    -- a child that was started is not idle afterwards
    have : ∀ (es : List Ev) (s : St), Inv c s s.tags → s.ub = false → Legal c s es → (s.steps c es).ub = false →
        (s.child i ≠ .idle ∨ Ev.notReady i ∈ es) → (s.steps c es).child i ≠ .idle := by
      intro es
      induction es with
      | nil => intro s _ _ _ _ h; simpa [St.steps] using h
      | cons e es ih =>
        intro s hi hu hl hu' h
        have hu1 : (s.step c e).ub = false := by
          cases hx : (s.step c e).ub
          · rfl
          · have := steps_ub (c := c) es hx
            rw [show St.steps c (s.step c e) es = St.steps c s (e :: es) from rfl, hu'] at this; simp at this
        have hi1 : Inv c (s.step c e) (s.step c e).tags := by
          rcases hi.step hc e with h1 | h1
          · rw [hu1] at h1; simp at h1
          · exact h1
        refine ih (s.step c e) hi1 hu1 hl.2 hu' ?_
        rcases h with h | h
        · exact Or.inl (step_idle hi hu hl.1 i h)
        · rcases List.mem_cons.1 h with h | h
          · left
            subst h
            have hcan := hl.1
            unfold St.step
            rw [if_neg (by simp [hu, hcan])]
            simp
          · exact Or.inr h
    exact this es {} (Inv.init c) rfl hl hu (Or.inr hi)

/-- No undefined behaviour if there is at least one awaitable and completions do not
happen inside a cancellation or interruption from outside. -/
theorem C13_defined {c : Cfg} (hc : c.Ok) (hn : c.n ≠ 0) {es : List Ev} (hp : Posted c {} es) :
    (St.run c es).ub = false := by
  refine (Safe.steps hc ?_ es (Inv.init c) ⟨rfl, trivial, by simp [St.tags]⟩ hp).ub
  intro h0
  have := (hc.mem 0).2 (by omega)
  rw [h0] at this; simp at this

/-- In particular without cancellations and interruptions from outside. -/
theorem C13_defined_alone {c : Cfg} (hc : c.Ok) (hn : c.n ≠ 0) {es : List Ev}
    (ha : ∀ e ∈ es, e ≠ .interrupt ∧ ∀ ct, e ≠ .cancel ct) : (St.run c es).ub = false :=
  C13_defined hc hn (posted_of_alone es (by simp [St.tags]) ha)

/-- `gather` and `join` of nothing: `last_forked.release()` of a fork that does not
exist. -/
theorem C13_empty {c : Cfg} (hc : c.Ok) (_ : c.kind ≠ .race) (hn : c.n = 0) : (St.run c [.begin]).ub = true := by
  have h0 : c.order = [] := by
    cases ho : c.order with
    | nil => rfl
    | cons a l =>
      have := (hc.mem a).1 (by rw [ho]; simp)
      omega
  simp [St.run, St.steps, St.step, St.can, h0]

/-- Two awaitables, one ready, the other completing later. -/
def two (k : Kind) : Cfg := { kind := k, n := 2, order := [0, 1] }

theorem two_ok (k : Kind) : (two k).Ok := by
  refine ⟨by simp [two], fun i => ?_, fun _ => rfl⟩
  simp only [two, List.mem_cons, List.not_mem_nil, or_false]
  omega

def three (k : Kind) : Cfg := { kind := k, n := 3, order := [0, 1, 2] }

theorem three_ok (k : Kind) : (three k).Ok := by
  refine ⟨by simp [three], fun i => ?_, fun _ => rfl⟩
  simp only [three, List.mem_cons, List.not_mem_nil, or_false]
  omega

example : Legal (two .gather) {} [.begin, .ready 0 (.ok 5) false, .notReady 1, .ret false, .fin 1 (.err 3)] ∧
    (St.run (two .gather) [.begin, .ready 0 (.ok 5) false, .notReady 1, .ret false, .fin 1 (.err 3)]).ub = false ∧
    (St.run (two .gather) [.begin, .ready 0 (.ok 5) false, .notReady 1, .ret false]).phase = .suspended ∧
    (St.run (two .gather) [.begin, .ready 0 (.ok 5) false, .notReady 1, .ret false, .fin 1 (.err 3)]).phase = .resumed ∧
    (St.run (two .gather) [.begin, .ready 0 (.ok 5) false, .notReady 1, .ret false, .fin 1 (.err 3)]).resumes = 1 := by
  decide

example : (St.run (two .join) [.begin, .ready 0 (.ok 5) false, .ready 1 (.ok 6) false]).phase = .direct ∧
    (St.run (two .join) [.begin, .ready 0 (.ok 5) false, .ready 1 (.ok 6) false]).resumes = 0 := by decide

/-- A child that completes while another is being cancelled. -/
example : Posted (two .race) {} [.begin, .notReady 0, .ret false, .notReady 1, .ret false, .fin 1 (.ok 1),
      .fin 0 (.err 2), .ret false, .ret false, .ret false, .ret false, .ret false] ∧
    (St.run (two .race) [.begin, .notReady 0, .ret false, .notReady 1, .ret false, .fin 1 (.ok 1),
      .fin 0 (.err 2), .ret false, .ret false, .ret false, .ret false, .ret false]).phase = .resumed := by
  refine ⟨?_, by decide⟩
  refine posted_of_alone _ (by simp [St.tags]) ?_
  intro e he
  simp only [List.mem_cons, List.not_mem_nil, or_false] at he
  rcases he with rfl | rfl | rfl | rfl | rfl | rfl | rfl | rfl | rfl | rfl | rfl | rfl <;> simp

/-! ## C59: a combinator is not touched once it has resumed its awaiter

Resuming the awaiter usually destroys the combinator, which is a temporary of the
`co_await` expression. The loops that forward a cancellation or interruption from
outside go on to the next child when a child completes inside the call and was the
last one. -/

/-- It holds whenever completions are posted. -/
theorem C59_not_touched_partial {c : Cfg} (hc : c.Ok) (hn : c.n ≠ 0) {es : List Ev} (hp : Posted c {} es) :
    (St.run c es).ub = false := C13_defined hc hn hp

/-- In general it does not: `gather` of two, the second finished; a cancellation from
outside makes the first complete at once, which resumes the awaiter; the loop in
gather.hpp:176-182 then reads the next element. -/
theorem C59_cancel_violated : ∃ es, Legal (two .gather) {} es ∧
    (St.run (two .gather) es).phase = .resumed ∧ (St.run (two .gather) es).ub = true :=
  ⟨[.begin, .notReady 0, .ret false, .ready 1 (.ok 1) false, .cancel 1, .fin 0 (.err 1), .ret false], by decide⟩

/-- The same for `interrupt_await`, here of a `join`. -/
theorem C59_interrupt_violated : ∃ es, Legal (two .join) {} es ∧
    (St.run (two .join) es).phase = .resumed ∧ (St.run (two .join) es).ub = true :=
  ⟨[.begin, .notReady 0, .ret false, .ready 1 (.ok 1) false, .interrupt, .fin 0 (.err 1), .ret false], by decide⟩

/-- And of a `race`: the first child fails when interrupted, interrupts the second, which
fails too and resumes the awaiter; the loop in race.hpp:145-147 goes on. -/
theorem C59_race_violated : ∃ es, Legal (two .race) {} es ∧
    (St.run (two .race) es).phase = .resumed ∧ (St.run (two .race) es).ub = true :=
  ⟨[.begin, .notReady 0, .ret false, .notReady 1, .ret false, .interrupt, .fin 0 (.err 1), .fin 1 (.err 1), .ret false,
    .ret false, .ret false, .ret false], by decide⟩

example : Posted (two .gather) {} [.begin, .notReady 0, .ret false, .ready 1 (.ok 1) false, .cancel 1, .ret false,
    .fin 0 (.err 1)] := by
  refine ⟨by simp, by simp, by simp, by simp, by simp, by simp, ?_, trivial⟩
  intro _ _ _; decide

end Cobalt.Comb
