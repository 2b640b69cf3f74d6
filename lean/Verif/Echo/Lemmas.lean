import Verif.Echo.Spec
/-!
# Lemmas for C129
-/
namespace Cobalt.Echo

/-- What is always so. -/
structure I (s : St) : Prop where
  pre : ∃ l, s.out ++ l = s.sent
  bal : s.ph ≠ .writeErr → (∀ w, s.ph ≠ .over w) → s.out ++ s.held ++ s.inp = s.sent
  fin : s.ph = .readErr .eof ∨ s.ph = .over .eof → s.eof = true ∧ s.out = s.sent
  rd : ∀ bs, s.ph = .read bs → bs ≠ []
  wr : ∀ bs, s.ph = .writing bs → bs ≠ []
  ab : s.ph = .readErr .aborted ∨ s.ph = .over .aborted → s.cancelled = true
  can : s.cancelled = true → s.ph ≠ .reading

theorem I.init : I {} := by
  constructor <;> simp [St.held]

theorem emit_deaf : ((Io.compositionPromise (some 0)).emit 0).cancelled = false := by decide

theorem I.step {cap : Nat} (hc : 0 < cap) {s : St} (h : I s) (e : Ev) : I (s.step cap e) := by
  obtain ⟨⟨l, hl⟩, bal, fin, rd, wr, ab, can⟩ := h
  obtain ⟨sent, inp, eof, ph, out, cancelled⟩ := s
  dsimp only at *
  cases e with
  | send bs =>
    dsimp only [St.step]
    cases eof with
    | true => exact ⟨⟨l, hl⟩, bal, fin, rd, wr, ab, can⟩
    | false =>
      simp only [Bool.false_eq_true, if_false]
      refine ⟨⟨l ++ bs, by simp [← hl]⟩, fun h1 h2 => ?_, fun h => by simpa using fin h, rd, wr, ab, can⟩
      have := bal h1 h2
      dsimp only at *
      rw [← this]
      simp [St.held]
  | close =>
    refine ⟨⟨l, hl⟩, bal, fun h => ⟨rfl, (fin h).2⟩, rd, wr, ab, can⟩
  | recv n =>
    dsimp only [St.step]
    cases ph with
    | reading =>
      dsimp only [St.take]
      cases inp with
      | nil =>
        dsimp only
        cases eof with
        | true =>
          have := bal (by simp) (by simp)
          simp only [if_true]
          constructor <;> simp_all [St.held]
        | false => exact ⟨⟨l, hl⟩, bal, fin, rd, wr, ab, can⟩
      | cons b bs =>
        dsimp only
        have := bal (by simp) (by simp)
        have hm : min (n + 1) cap = min (n + 1) cap - 1 + 1 := by omega
        refine ⟨⟨l, hl⟩, fun _ _ => ?_, by simp, ?_, by simp, by simp, by simp⟩
        · simp only [St.held] at this ⊢
          rw [List.append_assoc, List.take_append_drop]
          simpa using this
        · intro bs' hb
          injection hb with hb
          rw [hm, List.take_succ_cons] at hb
          rw [← hb]; simp
    | _ => exact ⟨⟨l, hl⟩, bal, fin, rd, wr, ab, can⟩
  | accept n =>
    dsimp only [St.step]
    cases ph with
    | writing rest =>
      have := bal (by simp) (by simp)
      simp only [St.held] at this
      refine ⟨⟨rest.drop (n + 1) ++ inp, ?_⟩, fun _ _ => ?_, by simp, by simp, by simp, by simp, by simp⟩
      · rw [← this]
        simp only [List.append_assoc]
        rw [← List.append_assoc (List.take _ _), List.take_append_drop]
      · rw [← this]
        simp only [St.held, List.append_assoc]
        rw [← List.append_assoc (List.take _ _), List.take_append_drop]
    | _ => exact ⟨⟨l, hl⟩, bal, fin, rd, wr, ab, can⟩
  | fail =>
    dsimp only [St.step]
    cases ph with
    | reading =>
      have := bal (by simp) (by simp)
      refine ⟨⟨l, hl⟩, fun _ _ => ?_, by simp, by simp, by simp, by simp, by simp⟩
      simpa [St.held] using this
    | writing rest => refine ⟨⟨l, hl⟩, by simp, by simp, by simp, by simp, by simp, by simp⟩
    | _ => exact ⟨⟨l, hl⟩, bal, fin, rd, wr, ab, can⟩
  | run =>
    dsimp only [St.step, St.go]
    cases ph with
    | read bs =>
      have hb := bal (by simp) (by simp)
      have hn := rd bs rfl
      dsimp only [St.await]
      cases cancelled with
      | true => exact ⟨⟨l, hl⟩, by simp, by simp, by simp, by simp, by simp, by simp⟩
      | false =>
        refine ⟨⟨l, hl⟩, fun _ _ => ?_, by simp, by simp, ?_, by simp, by simp⟩
        · simpa [St.held] using hb
        · simp; exact hn
    | readErr w =>
      refine ⟨⟨l, hl⟩, by simp, fun h => fin (by simpa using h), by simp, by simp, fun h => ab (by simpa using h), by simp⟩
    | wrote bs =>
      have hb := bal (by simp) (by simp)
      cases bs with
      | nil =>
        dsimp only [St.await]
        cases cancelled with
        | true => exact ⟨⟨l, hl⟩, by simp, by simp, by simp, by simp, by simp, by simp⟩
        | false =>
          refine ⟨⟨l, hl⟩, fun _ _ => ?_, by simp, by simp, by simp, by simp, by simp⟩
          simpa [St.held] using hb
      | cons b bs =>
        refine ⟨⟨l, hl⟩, fun _ _ => ?_, by simp, by simp, by simp, by simp, by simp⟩
        simpa [St.held] using hb
    | writeErr => exact ⟨⟨l, hl⟩, by simp, by simp, by simp, by simp, by simp, by simp⟩
    | _ => exact ⟨⟨l, hl⟩, bal, fin, rd, wr, ab, can⟩
  | cancel =>
    dsimp only [St.step, St.hear]
    cases ph with
    | reading =>
      have := bal (by simp) (by simp)
      refine ⟨⟨l, hl⟩, fun _ _ => ?_, by simp, by simp, by simp, by simp, by simp⟩
      simpa [St.held] using this
    | writing rest =>
      dsimp only
      rw [emit_deaf]
      exact ⟨⟨l, hl⟩, bal, fin, rd, wr, by simp, by simp⟩
    | _ => exact ⟨⟨l, hl⟩, bal, fin, rd, wr, by simp, by simp⟩

theorem I.steps {cap : Nat} (hc : 0 < cap) (es : List Ev) : ∀ {s : St}, I s → I (s.steps cap es) := by
  induction es with
  | nil => exact fun h => h
  | cons e es ih => exact fun h => ih (h.step hc e)

theorem I.exec {cap : Nat} (hc : 0 < cap) (es : List Ev) : I (exec cap es) := I.init.steps hc es

theorem runs_succ (cap n : Nat) (s : St) : s.steps cap (List.replicate (n + 1) .run) =
    (s.step cap .run).steps cap (List.replicate n .run) := rfl

/-- Running alone does not take anything from a session that waits for its client. -/
theorem held_runs (cap n : Nat) : ∀ {s : St}, Held s → Held (s.steps cap (List.replicate n .run)) := by
  induction n with
  | zero => exact fun h => h
  | succ n ih =>
    intro s h
    rw [runs_succ]
    refine ih ?_
    obtain ⟨b, bs, h | h⟩ := h
    · exact ⟨b, bs, by simp [St.step, St.go, h]⟩
    · exact ⟨b, bs, by simp [St.step, St.go, h]⟩

theorem held_not_over {s : St} (h : Held s) : ¬ Over s := by
  rintro ⟨w, hw⟩
  obtain ⟨b, bs, h | h⟩ := h <;> rw [hw] at h <;> cases h

/-- Without an answer to be taken, a cancelled session is over after at most one completion. -/
theorem one_run {s : St} (cap : Nat) (h : I s) (hc : s.cancelled = true) (hh : ¬ Held s) :
    Over (s.steps cap [.run]) := by
  have e : s.steps cap [.run] = s.go := rfl
  rw [e]
  cases hp : s.ph with
  | reading => exact absurd hp (h.can hc)
  | read bs => exact ⟨.aborted, by simp [St.go, hp, St.await, hc]⟩
  | readErr w => exact ⟨w, by simp [St.go, hp]⟩
  | writing bs =>
    cases bs with
    | nil => exact absurd rfl (h.wr _ hp)
    | cons b bs => exact absurd ⟨b, bs, Or.inl hp⟩ hh
  | wrote bs =>
    cases bs with
    | nil => exact ⟨.aborted, by simp [St.go, hp, St.await, hc]⟩
    | cons b bs => exact absurd ⟨b, bs, Or.inr hp⟩ hh
  | writeErr => exact ⟨.failed, by simp [St.go, hp]⟩
  | over w => exact ⟨w, by simp [St.go, hp]⟩

theorem over_step {cap : Nat} {s : St} {w : Why} (h : s.ph = .over w) (e : Ev) : (s.step cap e).ph = .over w ∧
    (s.step cap e).out = s.out := by
  cases e <;> simp [St.step, h, St.go, St.hear] <;> split <;> simp [h]

theorem over_steps {cap : Nat} {w : Why} (es : List Ev) : ∀ {s : St}, s.ph = .over w →
    (s.steps cap es).ph = .over w ∧ (s.steps cap es).out = s.out := by
  induction es with
  | nil => exact fun h => ⟨h, rfl⟩
  | cons e es ih =>
    intro s h
    obtain ⟨h1, h2⟩ := over_step (cap := cap) h e
    obtain ⟨h3, h4⟩ := ih h1
    exact ⟨h3, h4.trans h2⟩

/-- A cancelled session that waits for its client sends all of the answer and is over. -/
theorem taking_over (cap n : Nat) : ∀ (k : Nat) (s : St) (rest : List Nat), rest.length ≤ k → s.cancelled = true →
    rest ≠ [] → s.ph = .writing rest → (s.steps cap (taking n k)).ph = .over .aborted ∧
      (s.steps cap (taking n k)).out = s.out ++ rest := by
  intro k
  induction k with
  | zero =>
    intro s rest hl _ hne
    exact absurd (List.length_eq_zero_iff.1 (Nat.le_zero.1 hl)) hne
  | succ k ih =>
    intro s rest hl hc hne hp
    have e : s.steps cap (taking n (k + 1)) = ((s.step cap (.accept n)).step cap .run).steps cap (taking n k) := rfl
    rw [e]
    have e1 : s.step cap (.accept n) = { s with ph := .wrote (rest.drop (n + 1)), out := s.out ++ rest.take (n + 1) } := by
      simp [St.step, hp]
    rw [e1]
    cases hd : rest.drop (n + 1) with
    | nil =>
      have e2 : ({ s with ph := .wrote [], out := s.out ++ rest.take (n + 1) } : St).step cap .run =
          { s with ph := .over .aborted, out := s.out ++ rest.take (n + 1) } := by
        simp [St.step, St.go, St.await, hc]
      rw [e2]
      obtain ⟨h1, h2⟩ := over_steps (cap := cap) (w := .aborted) (taking n k)
        (s := { s with ph := .over .aborted, out := s.out ++ rest.take (n + 1) }) rfl
      refine ⟨h1, h2.trans ?_⟩
      have := List.take_append_drop (n + 1) rest
      rw [hd, List.append_nil] at this
      dsimp only
      rw [this]
    | cons b bs =>
      have e2 : ({ s with ph := .wrote (b :: bs), out := s.out ++ rest.take (n + 1) } : St).step cap .run =
          { s with ph := .writing (b :: bs), out := s.out ++ rest.take (n + 1) } := by
        simp [St.step, St.go]
      rw [e2]
      have hlen : (b :: bs).length ≤ k := by
        rw [← hd, List.length_drop]; omega
      obtain ⟨h1, h2⟩ := ih { s with ph := .writing (b :: bs), out := s.out ++ rest.take (n + 1) } (b :: bs) hlen hc
        (by simp) rfl
      refine ⟨h1, h2.trans ?_⟩
      dsimp only
      rw [List.append_assoc, ← hd, List.take_append_drop]

/-- How much there is still to do. -/
def St.todo (s : St) : Nat := 4 * s.inp.length + match s.ph with
  | .reading => 2
  | .read bs => 4 * bs.length + 1
  | .readErr _ => 1
  | .writing bs => 2 * bs.length + 2
  | .wrote bs => 2 * bs.length + 3
  | .writeErr => 1
  | .over _ => 0

theorem ite_le_one (p : Prop) [Decidable p] : (if p then 0 else 1) ≤ 1 := by split <;> omega

theorem todo_step {cap : Nat} {s : St} (h : I s) {e : Ev} (he : e.works = true) :
    (s.step cap e).todo + (if s.step cap e = s then 0 else 1) ≤ s.todo := by
  obtain ⟨_, _, _, rd, wr, _, _⟩ := h
  obtain ⟨sent, inp, eof, ph, out, cancelled⟩ := s
  dsimp only at *
  cases e with
  | send bs => cases he
  | close => cases he
  | fail => cases he
  | cancel => cases he
  | recv n =>
    dsimp only [St.step]
    cases ph with
    | reading =>
      dsimp only [St.take]
      cases inp with
      | nil =>
        dsimp only
        split
        · simp [St.todo]
        · simp
      | cons b bs =>
        dsimp only
        have hk : ((b :: bs).take (min (n + 1) cap)).length + ((b :: bs).drop (min (n + 1) cap)).length =
            (b :: bs).length := by
          rw [← List.length_append, List.take_append_drop]
        refine Nat.le_trans (Nat.add_le_add_left (ite_le_one _) _) ?_
        simp only [St.todo]
        omega
    | _ => simp
  | accept n =>
    dsimp only [St.step]
    cases ph with
    | writing rest =>
      have : rest ≠ [] := wr rest rfl
      have : 0 < rest.length := List.length_pos_iff.2 this
      refine Nat.le_trans (Nat.add_le_add_left (ite_le_one _) _) ?_
      simp only [St.todo, List.length_drop]
      omega
    | _ => simp
  | run =>
    dsimp only [St.step, St.go]
    cases ph with
    | read bs =>
      have : 0 < bs.length := List.length_pos_iff.2 (rd bs rfl)
      dsimp only [St.await]
      refine Nat.le_trans (Nat.add_le_add_left (ite_le_one _) _) ?_
      cases cancelled <;> simp only [St.todo, Bool.false_eq_true, if_false, if_true] <;> omega
    | readErr w => simp [St.todo]
    | wrote bs =>
      cases bs with
      | nil =>
        dsimp only [St.await]
        refine Nat.le_trans (Nat.add_le_add_left (ite_le_one _) _) ?_
        cases cancelled <;> simp only [St.todo, Bool.false_eq_true, if_false, if_true, List.length_nil] <;> omega
      | cons b bs =>
        refine Nat.le_trans (Nat.add_le_add_left (ite_le_one _) _) ?_
        simp only [St.todo]
        omega
    | writeErr => simp [St.todo]
    | _ => simp

theorem todo_steps {cap : Nat} (hc : 0 < cap) (es : List Ev) : ∀ {s : St}, I s → (∀ e ∈ es, e.works = true) →
    s.useful cap es ≤ s.todo := by
  induction es with
  | nil => exact fun _ _ => Nat.zero_le _
  | cons e es ih =>
    intro s h he
    have h1 := ih (h.step hc e) fun x hx => he x (List.mem_cons_of_mem _ hx)
    have h2 := todo_step (cap := cap) h (he e (by simp))
    unfold St.useful
    omega

end Cobalt.Echo
