import Verif.Objs.Keep
/-!
# C124: a pool of objects kept in a channel

include/boost/cobalt/channel.hpp:30-206, include/boost/cobalt/impl/channel.hpp:34-323.
-/
namespace Cobalt.Objs

open Chan (Status Tok Obs upd)

/-! ## What goes wrong -/

/-- One object; coroutine 1 waits for it, is woken when it comes back, and coroutine 0 takes it again. -/
def overtaken : List Ev :=
  [.make 0, .bring 0 true, .take 0 true, .take 1 true, .bring 0 true, .take 0 true, .run 0]

/-- **C124** is violated: the coroutine that was woken finds the buffer empty and takes `*direct`, which holds nothing (impl/channel.hpp:181). -/
theorem C124_violated : ¬ ∀ n es, (exec n es).ch.ub = false := by
  intro h
  have hu : (exec 1 overtaken).ch.ub = true := by rfl
  rw [h] at hu; cases hu

/-- Two coroutines wait for the object; the first is cancelled after it was woken. -/
def asleep : List Ev :=
  [.make 0, .take 1 true, .take 2 true, .bring 0 true, .cancel 1, .run 0]

/-- **C124**, nobody waits for nothing, is violated: the object is in the channel, nothing is scheduled, and
coroutine 2 waits. -/
theorem C124_asleep_violated : ¬ ∀ n es, (exec n es).ch.ub = false → Served (exec n es) := by
  intro h
  have := h 1 asleep (by rfl) (by rfl) 2 1 (by rfl)
  cases this

/-! ## What holds -/

/-- Whatever the coroutines do, as long as nothing undefined has happened every object is with exactly one
coroutine or once in the channel, and nobody has to wait to bring one back. -/
theorem C124_own (n : Nat) (es : List Ev) (h : (exec n es).ch.ub = false) :
    Own (exec n es) ∧ ∀ u i o, (exec n es).ph u ≠ .back i o :=
  ⟨(exec_PI h).Own, (exec_PI h).noback⟩

/-- The event that makes the behaviour undefined: a read that was woken and not cancelled runs when the buffer
is empty. -/
theorem C124_exact (n : Nat) (es : List Ev) (e : Ev) (h : (exec n es).ch.ub = false) :
    (exec n (es ++ [e])).ch.ub = true ↔
      ∃ k j, e = .run k ∧ (exec n es).ch.posted[k]? = some (.r j) ∧
        ((exec n es).ch.R j).cancelled = false ∧ (exec n es).ch.buf = [] := by
  have hp := exec_PI h
  have he : exec n (es ++ [e]) = (exec n es).step e := steps_snoc _ _ _
  rw [he]
  constructor
  · intro hu
    have m := move hp e
    generalize (exec n es).step e = s' at m hu
    cases m with
    | bad k j hk hc hb => exact ⟨k, j, rfl, hk, hc, hb⟩
    | idle => rw [h] at hu; cases hu
    | make => dsimp only at hu; rw [h] at hu; cases hu
    | takeNow => dsimp only at hu; rw [h] at hu; cases hu
    | takeWait => dsimp only at hu; rw [h] at hu; cases hu
    | bring => dsimp only at hu; rw [h] at hu; cases hu
    | abort => dsimp only at hu; rw [h] at hu; cases hu
    | got => dsimp only at hu; rw [h] at hu; cases hu
    | cancel => dsimp only at hu; rw [h] at hu; cases hu
  · rintro ⟨k, j, rfl, hk, hc, hb⟩
    change ((exec n es).ch.steps [.run k]).ub = true
    rw [run_bad hp.ok hk hc hb]

theorem runs_ub : ∀ (m : Nat) (s : St), PI s → s.ch.posted.length = m → s.ch.buf.length < woken s.ch →
    (s.steps ((List.replicate m 0).map Ev.run)).ch.ub = true
  | 0, s, h, hm, hw => by
    rw [woken_eq, List.length_eq_zero_iff.1 hm] at hw
    simp at hw
  | m + 1, s, h, hm, hw => by
    change ((s.step (.run 0)).steps _).ch.ub = true
    obtain ⟨t, ht⟩ : ∃ t, s.ch.posted[0]? = some t := by
      cases hq : s.ch.posted with
      | nil => rw [hq] at hm; simp at hm
      | cons t q => exact ⟨t, rfl⟩
    obtain ⟨j, rfl, hj, _⟩ := h.ok.post t (List.mem_of_getElem? ht)
    have hlen : (s.ch.posted.eraseIdx 0).length = m := by
      rw [List.length_eraseIdx, if_pos (by omega), hm]; rfl
    have hcn := countP_erase (wk s.ch.R) ht
    have hch : (s.step (.run 0)).ch = s.ch.steps [.run 0] := rfl
    by_cases hc : (s.ch.R j).cancelled = true
    · rw [run_abort h.ok ht hc] at hch
      rcases h.move (move h (.run 0)) with hu | hp
      · exact steps_ub hu _
      · refine runs_ub m _ hp (by rw [hch]; exact hlen) ?_
        rw [hch, woken_eq]
        dsimp only
        rw [woken_eq] at hw
        rw [wk_upd _ _ _ (by rfl)]
        simp only [wk, hc, Bool.not_true, Bool.false_eq_true, if_false] at hcn
        omega
    · have hc' : (s.ch.R j).cancelled = false := by simpa using hc
      cases hb : s.ch.buf with
      | nil =>
        rw [run_bad h.ok ht hc' hb] at hch
        exact steps_ub (by rw [hch]) _
      | cons b bs =>
        rw [run_got h.ok ht hc' hb] at hch
        rcases h.move (move h (.run 0)) with hu | hp
        · exact steps_ub hu _
        · refine runs_ub m _ hp (by rw [hch]; exact hlen) ?_
          rw [hch, woken_eq]
          dsimp only
          rw [woken_eq, hb] at hw
          rw [wk_upd _ _ _ (by rfl)]
          simp only [wk, hc', Bool.not_false, if_true, List.length_cons] at hcn hw
          omega

theorem runs_fine {s : St} (h : PI s) (hw : woken s.ch ≤ s.ch.buf.length) (ks : List Nat) :
    (s.steps (ks.map Ev.run)).ch.ub = false := by
  induction ks generalizing s with
  | nil => exact h.ok.ub
  | cons k ks ih =>
    have hk := polite_keep h (move h (.run k)) trivial hw
    rcases h.move (move h (.run k)) with hu | hp
    · rw [hk.1] at hu; cases hu
    · exact ih hp hk.2

/-- When it is too late: with what is scheduled alone the behaviour can become undefined exactly when more reads have
been woken than there are objects in the channel; and then it does so when the executor runs what is scheduled in
order. -/
theorem C124_late (n : Nat) (es : List Ev) (h : (exec n es).ch.ub = false) :
    ((∃ ks : List Nat, (exec n (es ++ ks.map Ev.run)).ch.ub = true) ↔
      (exec n es).ch.buf.length < woken (exec n es).ch) ∧
    ((exec n es).ch.buf.length < woken (exec n es).ch →
      (exec n (es ++ (List.replicate (exec n es).ch.posted.length 0).map Ev.run)).ch.ub = true) := by
  have ha : ∀ fs, exec n (es ++ fs) = (exec n es).steps fs := fun fs => by
    simp [exec, St.steps]
  have h2 : (exec n es).ch.buf.length < woken (exec n es).ch →
      (exec n (es ++ (List.replicate (exec n es).ch.posted.length 0).map Ev.run)).ch.ub = true :=
    fun hw => by rw [ha]; exact runs_ub _ _ (exec_PI h) rfl hw
  refine ⟨⟨fun ⟨ks, hk⟩ => ?_, fun hw => ⟨_, h2 hw⟩⟩, h2⟩
  refine Classical.byContradiction fun hc => ?_
  rw [ha, runs_fine (exec_PI h) (by omega)] at hk
  cases hk

theorem polite_all {s : St} (h : PI s) (hw : woken s.ch ≤ s.ch.buf.length) (es : List Ev)
    (hp : PoliteAll s es) : (s.steps es).ch.ub = false := by
  induction es generalizing s with
  | nil => exact h.ok.ub
  | cons e es ih =>
    have hk := polite_keep h (move h e) hp.1 hw
    rcases h.move (move h e) with hu | hq
    · rw [hk.1] at hu; cases hu
    · exact ih hq hk.2 hp.2

theorem spares_all {s : St} (h : PI s) (hw : s.ch.rq ≠ [] → s.ch.buf.length ≤ woken s.ch)
    (es : List Ev) (hp : SparesAll s es) (hub : (s.steps es).ch.ub = false) :
    PI (s.steps es) ∧ ((s.steps es).ch.rq ≠ [] → (s.steps es).ch.buf.length ≤ woken (s.steps es).ch) := by
  induction es generalizing s with
  | nil => exact ⟨h, hw⟩
  | cons e es ih =>
    have hk := spares_keep h (move h e) hp.1 hw
    rcases h.move (move h e) with hu | hq
    · rw [show (s.steps (e :: es)) = (s.step e).steps es from rfl, steps_ub hu] at hub; cases hub
    · exact ih hq hk hp.2 hub

/-- Nobody waits for nothing, as long as nobody is cancelled between its wake-up and its resumption. -/
theorem C124_served_partial (n : Nat) (es : List Ev) (hs : SparesAll (St.init n) es)
    (h : (exec n es).ch.ub = false) : Served (exec n es) := by
  obtain ⟨hp, hk⟩ := spares_all (PI.init n) (fun hc => absurd rfl hc) es hs h
  intro hpo u j hu
  have hp : PI (exec n es) := hp
  have hk : (exec n es).ch.rq ≠ [] → (exec n es).ch.buf.length ≤ woken (exec n es).ch := hk
  have hr : (exec n es).ch.rq ≠ [] := by
    rcases hp.ok.susp j (hp.wait u j hu) with h1 | h1
    · exact List.ne_nil_of_mem h1
    · rw [hpo] at h1; cases h1
  have := hk hr
  rw [woken_eq, hpo] at this
  simpa using this

/-- **C124** as far as the code goes: if a coroutine takes an object without waiting only when there is one left for
everybody that was woken, nothing undefined happens and every object has one place; and if besides nobody is
cancelled between wake-up and resumption, nobody waits for nothing.

What is missing from `C124` are the two conditions; without them see `C124_violated`, `C124_asleep_violated`. -/
theorem C124_partial (n : Nat) (es : List Ev) (hp : PoliteAll (St.init n) es) :
    (exec n es).ch.ub = false ∧ Own (exec n es) ∧
    (SparesAll (St.init n) es → Served (exec n es)) := by
  have h : (exec n es).ch.ub = false := polite_all (PI.init n) (by simp [woken, St.init, Chan.St.init]) es hp
  exact ⟨h, (C124_own n es h).1, fun hs => C124_served_partial n es hs h⟩

/-! ## Examples -/

/-- Two objects, three coroutines: one waits, one is cancelled while it waits, the objects go round. -/
def round : List Ev :=
  [.make 0, .make 1, .take 2 true, .take 3 true, .cancel 3, .run 0, .bring 1 false, .run 0, .bring 0 true,
    .take 3 false, .bring 2 true]

example : PoliteAll (St.init 2) round ∧ SparesAll (St.init 2) round := by
  refine ⟨?_, ?_⟩
  · refine ⟨trivial, trivial, .inl rfl, .inl rfl, trivial, trivial, trivial, trivial, trivial, .inr ?_,
      trivial, trivial⟩
    decide
  · refine ⟨trivial, trivial, trivial, trivial, ?_, trivial, trivial, trivial, trivial, trivial, trivial,
      trivial⟩
    intro j _ h
    cases h

example : (exec 2 round).ph 3 = .has 0 ∧ (exec 2 round).ch.buf.map (exec 2 round).obj = [1] ∧
    (exec 2 round).made = 2 := ⟨rfl, rfl, rfl⟩

/-- The state of `overtaken` before the last event is one where it is too late. -/
example : (exec 1 (overtaken.take 6)).ch.ub = false ∧
    (exec 1 (overtaken.take 6)).ch.buf.length < woken (exec 1 (overtaken.take 6)).ch := by
  refine ⟨rfl, ?_⟩
  decide

end Cobalt.Objs
