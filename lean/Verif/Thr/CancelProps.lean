import Verif.Thr.CancelModel

/-!
# C82: a cancelled thread is told so, and what it used is freed
-/
namespace Cobalt.Thr.Cancel

/-- The end of all: the thread function returned without terminating the process, the object
is destroyed, detached or awaited, and the coroutine that awaited it went on. -/
def Final (s : St) : Prop :=
  s.fin = true ∧ s.terminated = false ∧ s.obj = false ∧ (s.aw = .idle ∨ s.aw = .done)

/-- The numbers of the posted cancellations among the handlers. -/
def emits : List Hd → List Nat
  | [] => []
  | .start :: q => emits q
  | .emit n :: q => n :: emits q

/-- C82: at the end every call of `cancel` was emitted on the thread, in the order of the
calls, and nothing is left of the state. -/
def C82 : Prop := ∀ evs, Final (run evs) →
  (run evs).ignored = 0 ∧ (run evs).out = List.range (run evs).posted ∧
  freed (run evs) = true

/-! ## Invariant -/

theorem emits_append (a b : List Hd) : emits (a ++ b) = emits a ++ emits b := by
  induction a with
  | nil => rfl
  | cons h t ih => cases h <;> simp [emits, ih]

/-- What holds in every state: the emitted cancellations and those in the queue are all that
were posted, in order; the start is in the queue from `prepare` until the body began; slot and
awaitable hold the state while the coroutine waits. -/
structure Inv (s : St) : Prop where
  order : s.out ++ emits s.queue = List.range s.posted
  start : Hd.start ∈ s.queue ↔ (s.prep = true ∧ s.body = .fresh)
  once : s.queue.count .start ≤ 1
  slot : s.slot = true ↔ (s.aw = .waiting ∨ s.aw = .posted)
  holds : s.awHolds = s.slot
  posted : s.aw = .posted → s.fin = true
  ran : s.fin = true → s.ran = true
  prep : s.ran = true → s.prep = true
  body : s.body ≠ .fresh → s.prep = true
  term : s.terminated = true → s.fin = true
  taken : s.aw ≠ .idle → s.obj = false

theorem inv_init : Inv {} := by
  constructor <;> simp [emits]

theorem inv_post {s : St} (h : Inv s) : Inv (post s) := by
  obtain ⟨h1, h2, h3, h4, h5, h6, h7, h8, h9, h10, h11⟩ := h
  constructor <;> simp only [post] <;> try assumption
  · rw [emits_append, ← List.append_assoc, h1, List.range_succ]; rfl
  · simp [h2]
  · simpa using h3

theorem inv_step {s : St} (e : Ev) (h : Inv s) : Inv (step s e) := by
  cases e with
  | cancelObj =>
    simp only [step]; split
    · exact inv_post h
    · obtain ⟨h1, h2, h3, h4, h5, h6, h7, h8, h9, h10, h11⟩ := h; constructor <;> assumption
  | cancelAw =>
    simp only [step]; split
    · exact inv_post h
    · exact h
  | await =>
    simp only [step]; split
    · obtain ⟨h1, h2, h3, h4, h5, h6, h7, h8, h9, h10, h11⟩ := h
      rename_i hc; simp at hc
      split
      · constructor <;> simp_all
      · constructor <;> simp_all
    · exact h
  | drop =>
    simp only [step]; split
    · obtain ⟨h1, h2, h3, h4, h5, h6, h7, h8, h9, h10, h11⟩ := h
      constructor <;> first | assumption | (intro _; rfl)
    · exact h
  | detach =>
    obtain ⟨h1, h2, h3, h4, h5, h6, h7, h8, h9, h10, h11⟩ := h
    constructor <;> first | assumption | (intro _; rfl)
  | prepare =>
    simp only [step]; split
    · exact h
    · obtain ⟨h1, h2, h3, h4, h5, h6, h7, h8, h9, h10, h11⟩ := h
      rename_i hp
      have hq : Hd.start ∉ s.queue := fun hm => hp (h2.1 hm).1
      have hb : s.body = .fresh := by
        cases hb : s.body with
        | fresh => rfl
        | _ => exact absurd (h9 (by rw [hb]; simp)) hp
      constructor <;> simp only <;> try assumption
      · rw [emits_append]; simpa [emits] using h1
      · simp [hb]
      · simp [List.count_eq_zero.2 hq]
      · intro _; trivial
      · intro _; trivial
  | take =>
    simp only [step]; split
    · obtain ⟨h1, h2, h3, h4, h5, h6, h7, h8, h9, h10, h11⟩ := h
      rename_i hr
      have hprep : s.prep = true := by simp [running] at hr; exact hr.1.1.1
      split
      · constructor <;> assumption
      · rename_i q hq
        rw [hq] at h1 h2 h3
        constructor <;> simp only <;> try assumption
        · simp at h3 ⊢; exact List.count_eq_zero.1 (by omega)
        · simp at h3 ⊢; omega
        · intro _; exact hprep
      · rename_i n q hq
        rw [hq] at h1 h2 h3
        constructor <;> simp only <;> try assumption
        · rw [← h1]; simp [emits]
        · simpa using h2
    · exact h
  | endBody t =>
    simp only [step]; split
    · obtain ⟨h1, h2, h3, h4, h5, h6, h7, h8, h9, h10, h11⟩ := h
      rename_i hr
      simp at hr
      constructor <;> simp only <;> try assumption
      · rw [h2, hr.2]; cases t <;> simp
      · intro _; exact h9 (by rw [hr.2]; simp)
    · exact h
  | leave =>
    simp only [step]; split
    · obtain ⟨h1, h2, h3, h4, h5, h6, h7, h8, h9, h10, h11⟩ := h
      rename_i hr
      simp at hr
      constructor <;> simp only <;> try assumption
      · intro _; trivial
      · intro _; exact hr.1.1
    · exact h
  | finish =>
    simp only [step]; split
    · obtain ⟨h1, h2, h3, h4, h5, h6, h7, h8, h9, h10, h11⟩ := h
      rename_i hr
      simp at hr
      split
      · rename_i hw
        simp at hw
        constructor <;> simp_all
      · constructor <;> simp_all
    · exact h
  | resume =>
    simp only [step]; split
    · obtain ⟨h1, h2, h3, h4, h5, h6, h7, h8, h9, h10, h11⟩ := h
      constructor <;> simp_all
    · exact h

theorem inv_foldl (evs : List Ev) (s : St) (h : Inv s) : Inv (evs.foldl step s) := by
  induction evs generalizing s with
  | nil => exact h
  | cons e t ih => exact ih _ (inv_step e h)

theorem inv_run (evs : List Ev) : Inv (run evs) := inv_foldl evs _ inv_init

/-- Cancellations are emitted in the order of the calls, without gaps, none twice. -/
theorem C82_order (evs : List Ev) : (run evs).out <+: List.range (run evs).posted :=
  ⟨_, (inv_run evs).order⟩

example : (run [.cancelObj, .prepare, .cancelObj, .take, .take]).out = [0] ∧
    (run [.cancelObj, .prepare, .cancelObj, .take, .take]).posted = 2 := by decide

theorem queue_nil_iff (evs : List Ev) (hp : (run evs).prep = true) :
    (run evs).queue = [] ↔
      ((run evs).out = List.range (run evs).posted ∧ (run evs).body ≠ .fresh) := by
  have hi := inv_run evs
  constructor
  · intro hq
    constructor
    · have := hi.order; rw [hq] at this; simpa [emits] using this
    · intro hb
      have := hi.start.2 ⟨hp, hb⟩
      rw [hq] at this; simp at this
  · intro ⟨ho, hb⟩
    have h1 := hi.order
    rw [← ho] at h1
    have he : emits (run evs).queue = [] := by simpa using h1
    cases hq : (run evs).queue with
    | nil => rfl
    | cons h t =>
      cases h with
      | start =>
        exact absurd (hi.start.1 (by rw [hq]; simp)).2 hb
      | emit n => rw [hq] at he; simp [emits] at he

/-- What is left at the end: the state is freed exactly if the body was started and every
posted cancellation was emitted. Otherwise the handlers in the queue of the context own the
context that owns them. -/
theorem C82_exact (evs : List Ev) (h : Final (run evs)) :
    freed (run evs) = true ↔
      ((run evs).out = List.range (run evs).posted ∧ (run evs).body ≠ .fresh) := by
  have hi := inv_run evs
  obtain ⟨hf, _, ho, ha⟩ := h
  have hs : (run evs).slot = false := by
    cases hs : (run evs).slot with
    | false => rfl
    | true =>
      have := hi.slot.1 hs
      rcases ha with ha | ha <;> rw [ha] at this <;> simp at this
  have hh : (run evs).awHolds = false := by rw [hi.holds, hs]
  rw [← queue_nil_iff evs (hi.prep (hi.ran hf))]
  simp [freed, hf, ho, hs, hh]

/-- Cancelled twice, awaited: all emitted, freed. -/
example : Final (run [.prepare, .take, .cancelObj, .await, .cancelAw, .take, .take,
      .endBody false, .leave, .finish, .resume]) ∧
    freed (run [.prepare, .take, .cancelObj, .await, .cancelAw, .take, .take,
      .endBody false, .leave, .finish, .resume]) = true := by
  unfold Final; decide

/-! ## In order -/

/-- A cancellation that comes while `run()` goes on and to something that holds the state; an
object that is destroyed only after the thread has ended; a body that does not throw. -/
def orderlyEv (s : St) : Ev → Bool
  | .cancelObj => s.obj && !s.ran
  | .cancelAw => !s.ran
  | .drop => s.fin
  | .endBody throws => !throws
  | _ => true

def orderly : St → List Ev → Bool
  | _, [] => true
  | s, e :: t => orderlyEv s e && orderly (step s e) t

structure Ord (s : St) : Prop where
  ignored : s.ignored = 0
  noThrow : s.body ≠ .threw
  left : s.ran = true → s.queue = [] ∧ s.body = .over
  stop : s.stopped = true → s.fin = true

theorem ord_step {s : St} (e : Ev) (hi : Inv s) (h : Ord s) (ho : orderlyEv s e = true) :
    Ord (step s e) := by
  obtain ⟨h1, h2, h3, h4⟩ := h
  cases e with
  | cancelObj =>
    simp [orderlyEv] at ho
    simp only [step, ho.1, if_true, post]
    constructor <;> simp_all
  | cancelAw =>
    simp [orderlyEv] at ho
    simp only [step]; split
    · simp only [post]; constructor <;> simp_all
    · constructor <;> assumption
  | await =>
    simp only [step]; split
    · split <;> (constructor <;> assumption)
    · constructor <;> assumption
  | drop =>
    simp [orderlyEv] at ho
    simp only [step]; split
    · constructor <;> simp_all
    · constructor <;> assumption
  | detach => constructor <;> assumption
  | prepare =>
    simp only [step]; split
    · constructor <;> assumption
    · rename_i hp
      constructor <;> simp only <;> try assumption
      intro hr; exact absurd (hi.prep hr) hp
  | take =>
    simp only [step]; split
    · rename_i hr
      simp [running] at hr
      split
      · constructor <;> assumption
      · constructor <;> simp_all
      · constructor <;> simp_all
    · constructor <;> assumption
  | endBody t =>
    simp [orderlyEv] at ho
    subst ho
    simp only [step]; split
    · rename_i hr
      simp [running] at hr
      constructor <;> simp_all
    · constructor <;> assumption
  | leave =>
    simp only [step]; split
    · rename_i hr
      simp at hr
      constructor <;> simp only <;> try assumption
      intro _
      rcases hr.2 with (hs | ht) | hov
      · have := h4 hs
        exact absurd (hi.ran this) (by simp [hr.1.2])
      · exact absurd ht h2
      · exact ⟨hov.2, hov.1⟩
    · constructor <;> assumption
  | finish =>
    simp only [step]; split
    · split <;> (constructor <;> simp_all)
    · constructor <;> assumption
  | resume =>
    simp only [step]; split <;> (constructor <;> assumption)

theorem ord_foldl (evs : List Ev) (s : St) (hi : Inv s) (h : Ord s)
    (ho : orderly s evs = true) : Ord (evs.foldl step s) := by
  induction evs generalizing s with
  | nil => exact h
  | cons e t ih =>
    simp [orderly] at ho
    exact ih _ (inv_step e hi) (ord_step e hi h ho.1) ho.2

/-- The part of C82 that holds: if the cancellations come while `run()` goes on, the object is
kept until the thread has ended or is awaited or detached, and the body does not throw. -/
theorem C82_partial (evs : List Ev) (ho : orderly {} evs = true) (h : Final (run evs)) :
    (run evs).ignored = 0 ∧ (run evs).out = List.range (run evs).posted ∧
    freed (run evs) = true := by
  have hd : Ord (run evs) := ord_foldl evs _ inv_init
    ⟨rfl, by decide, by decide, by decide⟩ ho
  have hi := inv_run evs
  have hl := hd.left (hi.ran h.1)
  have hq := (queue_nil_iff evs (hi.prep (hi.ran h.1))).1 hl.1
  exact ⟨hd.ignored, hq.1, (C82_exact evs h).2 hq⟩

example : orderly {} [.cancelObj, .prepare, .take, .take, .await, .cancelAw, .endBody false,
      .take, .leave, .finish, .resume, .drop] = true ∧
    Final (run [.cancelObj, .prepare, .take, .take, .await, .cancelAw, .endBody false,
      .take, .leave, .finish, .resume, .drop]) ∧
    (run [.cancelObj, .prepare, .take, .take, .await, .cancelAw, .endBody false,
      .take, .leave, .finish, .resume, .drop]).out = [0, 1] := by
  unfold Final; decide

/-- Once `run()` returned nothing is emitted any more, whatever happens. -/
theorem C82_late (pre suf : List Ev) (h : (run pre).ran = true) :
    (run (pre ++ suf)).out = (run pre).out ∧
    ((run pre).queue ≠ [] → (run (pre ++ suf)).queue ≠ []) := by
  have key : ∀ (evs : List Ev) (s : St), s.ran = true →
      (evs.foldl step s).out = s.out ∧ (s.queue ≠ [] → (evs.foldl step s).queue ≠ []) := by
    intro evs
    induction evs with
    | nil => intro s _; exact ⟨rfl, id⟩
    | cons e t ih =>
      intro s hs
      have h1 : (step s e).ran = true ∧ (step s e).out = s.out ∧
          (s.queue ≠ [] → (step s e).queue ≠ []) := by
        cases e <;> simp only [step, post, running] <;> (repeat' split) <;> simp_all
      have h2 := ih _ h1.1
      exact ⟨h2.1.trans h1.2.1, fun hq => h2.2 (h1.2.2 hq)⟩
  have := key suf (run pre) h
  simpa [run, List.foldl_append] using this

example : (run [.prepare, .take, .endBody false, .leave, .cancelObj]).ran = true ∧
    (run [.prepare, .take, .endBody false, .leave, .cancelObj]).queue ≠ [] := by decide

/-! ## The end of the state -/

theorem run_snoc (evs : List Ev) (e : Ev) : run (evs ++ [e]) = step (run evs) e := by
  simp [run, List.foldl_append]

/-- Nobody uses the state after its last owner is gone: whatever happens then, nothing is
posted to the context, taken from its queue or emitted, and the state is not there again. -/
theorem C82_freed (pre suf : List Ev) (h : freed (run pre) = true) :
    freed (run (pre ++ suf)) = true ∧ (run (pre ++ suf)).posted = (run pre).posted ∧
    (run (pre ++ suf)).out = (run pre).out ∧ (run (pre ++ suf)).queue = [] ∧
    (run (pre ++ suf)).body = (run pre).body := by
  have key : ∀ (evs : List Ev) (s : St), Inv s → freed s = true →
      freed (evs.foldl step s) = true ∧ (evs.foldl step s).posted = s.posted ∧
      (evs.foldl step s).out = s.out ∧ (evs.foldl step s).queue = [] ∧
      (evs.foldl step s).body = s.body := by
    intro evs
    induction evs with
    | nil => intro s _ hf; refine ⟨hf, rfl, rfl, ?_, rfl⟩; simp [freed] at hf; exact hf.2
    | cons e t ih =>
      intro s hi hf
      have hf' := hf
      simp [freed] at hf'
      obtain ⟨⟨⟨⟨ho, _⟩, hs⟩, hfin⟩, hq⟩ := hf'
      have hr := hi.ran hfin
      have hp := hi.prep hr
      have h1 : freed (step s e) = true ∧ (step s e).posted = s.posted ∧
          (step s e).out = s.out ∧ (step s e).body = s.body := by
        cases e <;> simp only [step, running] <;> (repeat' split) <;> simp_all [freed]
      obtain ⟨a, b, c, d, e'⟩ := ih _ (inv_step e hi) h1.1
      exact ⟨a, b.trans h1.2.1, c.trans h1.2.2.1, d, e'.trans h1.2.2.2⟩
  have := key suf (run pre) (inv_run pre) h
  simpa [run, List.foldl_append] using this

example : freed (run [.detach, .prepare, .take, .endBody false, .leave, .finish]) = true ∧
    (run ([.detach, .prepare, .take, .endBody false, .leave, .finish] ++
      [.cancelObj, .cancelAw, .take])).ignored = 1 := by decide

/-- A detached thread cannot be cancelled, awaited or stopped: the object does nothing more. -/
theorem C82_detached (evs suf : List Ev) :
    (run (evs ++ .detach :: suf)).obj = false ∧
    ∀ e, e = .cancelObj ∨ e = .await ∨ e = .drop →
      { run (evs ++ .detach :: suf ++ [e]) with ignored := 0 } =
        { run (evs ++ .detach :: suf) with ignored := 0 } := by
  have ho : (run (evs ++ .detach :: suf)).obj = false := by
    have key : ∀ (l : List Ev) (s : St), s.obj = false → (l.foldl step s).obj = false := by
      intro l
      induction l with
      | nil => exact fun _ h => h
      | cons e t ih =>
        intro s hs
        refine ih _ ?_
        cases e <;> simp only [step, post] <;> (repeat' split) <;> simp_all
    have := key suf (step (run evs) .detach) rfl
    simpa [run, List.foldl_append] using this
  refine ⟨ho, fun e he => ?_⟩
  rw [run_snoc]
  rcases he with rfl | rfl | rfl <;> simp [step, ho]

example : (run [.prepare, .take, .detach, .cancelObj, .drop]).stopped = false ∧
    (run [.prepare, .take, .detach, .cancelObj, .drop]).ignored = 1 := by decide

/-- The process is terminated exactly if the body threw and nobody waits for the thread when
its function is through. -/
theorem C82_terminated (evs : List Ev) (hr : (run evs).ran = true)
    (hf : (run evs).fin = false) :
    (run (evs ++ [.finish])).terminated = true ↔
      ((run evs).body = .threw ∧ (run evs).aw ≠ .waiting) := by
  have ht : (run evs).terminated = false := by
    cases ht : (run evs).terminated with
    | false => rfl
    | true => exact absurd ((inv_run evs).term ht) (by simp [hf])
  rw [run_snoc]
  simp only [step, hr, hf]
  by_cases hw : (run evs).aw = .waiting <;> simp [hw, ht]

example : (run [.prepare, .take, .endBody true, .leave, .finish]).terminated = true ∧
    (run [.prepare, .take, .await, .endBody true, .leave, .finish]).terminated = false := by
  decide

/-! ## Where it fails -/

/-- The thread has ended, the object is cancelled and destroyed: the handler in the queue
owns the state. -/
theorem C82_violated : ¬ C82 := fun h => by
  have := (h [.prepare, .take, .endBody false, .leave, .finish, .cancelObj, .drop]
    (by unfold Final; decide)).2.2
  revert this; decide

/-- The coroutine that awaits is cancelled after the thread has ended, before it goes on. -/
theorem C82_posted_violated :
    Final (run [.prepare, .take, .await, .endBody false, .leave, .finish, .cancelAw,
      .resume]) ∧
    freed (run [.prepare, .take, .await, .endBody false, .leave, .finish, .cancelAw,
      .resume]) = false := by
  unfold Final; decide

/-- Cancelled and destroyed while it runs: the destructor stops the context, the
cancellation is not emitted, and the state is leaked with the body in it. -/
theorem C82_stopped_violated :
    Final (run [.prepare, .take, .cancelObj, .drop, .leave, .finish]) ∧
    (run [.prepare, .take, .cancelObj, .drop, .leave, .finish]).out = [] ∧
    (run [.prepare, .take, .cancelObj, .drop, .leave, .finish]).body = .waiting ∧
    freed (run [.prepare, .take, .cancelObj, .drop, .leave, .finish]) = false := by
  unfold Final; decide

/-- While it is awaited the object has no state: `t.cancel()` does nothing, although the
thread runs. -/
theorem C82_ignored_violated (evs : List Ev)
    (h : (run evs).aw = .waiting) :
    run (evs ++ [.cancelObj]) = { run evs with ignored := (run evs).ignored + 1 } := by
  have hr : run (evs ++ [.cancelObj]) = step (run evs) .cancelObj := by
    simp [run, List.foldl_append]
  have ho := (inv_run evs).taken (by rw [h]; simp)
  rw [hr]
  simp [step, ho]

example : (run [.prepare, .take, .await]).aw = .waiting ∧
    (run [.prepare, .take, .await]).body = .waiting := by decide

end Cobalt.Thr.Cancel
