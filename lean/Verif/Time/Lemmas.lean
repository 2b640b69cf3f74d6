import Verif.Time.Spec
import Mathlib.Data.List.Nodup
/-!
# Timers: invariant
-/
namespace Cobalt.Time

structure Inv (s : Timer) : Prop where
  startLt : ∀ o ∈ s.log, ∀ id, o.startOf = some id → id < s.next
  endLt : ∀ o ∈ s.log, ∀ id, o.endOf = some id → id < s.next
  ids : (s.pending.map Wait.id).Nodup
  pend : ∀ w ∈ s.pending, w.expiry = s.expiry ∧ (∃ t0, .started w.id w.expiry t0 ∈ s.log) ∧
    ∀ o ∈ s.log, o.endOf ≠ some w.id
  ends : (s.log.filterMap Obs.endOf).Nodup
  starts : s.log.filterMap Obs.startOf = List.range s.next
  early : ∀ id t, .ended id .ok t ∈ s.log → ∃ e t0, .started id e t0 ∈ s.log ∧ e ≤ t
  aborts : AbortsWhy s.log
  all : ∀ id, id < s.next → (∃ r t, .ended id r t ∈ s.log) ∨ ∃ w ∈ s.pending, w.id = id

theorem Inv.init (now e : Int) : Inv { now := now, expiry := e } where
  startLt := by simp
  endLt := by simp
  ids := by simp
  pend := by simp
  ends := by simp
  starts := by simp
  early := by simp
  aborts := by intro a b id t h; simp at h
  all := by simp

/-- Nothing but the clock and the expiry changes. -/
theorem Inv.clock {s : Timer} (h : Inv s) (t : Int) : Inv { s with now := t } :=
  ⟨h.startLt, h.endLt, h.ids, h.pend, h.ends, h.starts, h.early, h.aborts, h.all⟩

theorem Inv.expiry {s : Timer} (h : Inv s) (hp : s.pending = []) (t : Int) :
    Inv { s with expiry := t } :=
  ⟨h.startLt, h.endLt, h.ids, by simp [hp], h.ends, h.starts, h.early, h.aborts, h.all⟩

/-- A split of an extended list with the element in the extension or before it. -/
theorem split_append {α} {l k a b : List α} {x : α} (h : l ++ k = a ++ x :: b) :
    (∃ b', l = a ++ x :: b') ∨ (∃ a', a = l ++ a' ∧ k = a' ++ x :: b) := by
  rcases List.append_eq_append_iff.mp h with ⟨c, h1, h2⟩ | ⟨c, h1, h2⟩
  · exact .inr ⟨c, h1, h2⟩
  · cases c with
    | nil => exact .inr ⟨[], by simpa using h1.symm, by simpa using h2.symm⟩
    | cons y c =>
      simp only [List.cons_append, List.cons.injEq] at h2
      exact .inl ⟨c, by rw [h1, h2.1]⟩

theorem Inv.stop {s : Timer} (h : Inv s) : Inv { s with log := s.log ++ [.stopped] } where
  startLt := by
    intro o ho id hid
    simp only [List.mem_append, List.mem_singleton] at ho
    rcases ho with ho | ho
    · exact h.startLt o ho id hid
    · subst ho; cases hid
  endLt := by
    intro o ho id hid
    simp only [List.mem_append, List.mem_singleton] at ho
    rcases ho with ho | ho
    · exact h.endLt o ho id hid
    · subst ho; cases hid
  ids := h.ids
  pend := by
    intro w hw
    obtain ⟨h1, ⟨t0, h2⟩, h3⟩ := h.pend w hw
    refine ⟨h1, ⟨t0, List.mem_append_left _ h2⟩, fun o ho => ?_⟩
    simp only [List.mem_append, List.mem_singleton] at ho
    rcases ho with ho | ho
    · exact h3 o ho
    · subst ho; simp [Obs.endOf]
  ends := by simpa [List.filterMap_cons, Obs.endOf] using h.ends
  starts := by simpa [List.filterMap_cons, Obs.startOf] using h.starts
  early := by
    intro id t hm
    simp only [List.mem_append, List.mem_singleton, reduceCtorEq, or_false] at hm
    obtain ⟨e, t0, h1, h2⟩ := h.early id t hm
    exact ⟨e, t0, List.mem_append_left _ h1, h2⟩
  aborts := by
    intro a b id t hl
    rcases split_append hl with ⟨b', hb⟩ | ⟨a', _, hk⟩
    · exact h.aborts a b' id t hb
    · cases a' <;> simp at hk
  all := by
    intro id hid
    rcases h.all id hid with ⟨r, t, hm⟩ | hw
    · exact .inl ⟨r, t, List.mem_append_left _ hm⟩
    · exact .inr hw

/-- One pending wait ends: with success if its time has come, aborted if an aborting call was
just made. -/
theorem Inv.endOne {s : Timer} {w : Wait} {l k : List Wait} (h : Inv s)
    (hp : s.pending = l ++ w :: k) (r : Res)
    (hr : match r with | .ok => s.expiry ≤ s.now | .aborted => ∃ c, ∃ d, s.log = c ++ Obs.stopped :: d ∧
      ∀ v ∈ s.pending, ∃ t0, .started v.id v.expiry t0 ∈ c) :
    Inv { s with pending := l ++ k, log := s.log ++ [.ended w.id r s.now] } := by
  have hw : w ∈ s.pending := by rw [hp]; simp
  obtain ⟨hwe, ⟨wt, hws⟩, hwn⟩ := h.pend w hw
  have hnd := h.ids
  rw [hp] at hnd
  simp only [List.map_append, List.map_cons] at hnd
  have hnd' := (List.nodup_middle (l₁ := l.map Wait.id) (l₂ := k.map Wait.id) (a := w.id)).mp hnd
  simp only [List.nodup_cons, ← List.map_append] at hnd'
  constructor
  · intro o ho id hid
    simp only [List.mem_append, List.mem_singleton] at ho
    rcases ho with ho | ho
    · exact h.startLt o ho id hid
    · subst ho; cases hid
  · intro o ho id hid
    simp only [List.mem_append, List.mem_singleton] at ho
    rcases ho with ho | ho
    · exact h.endLt o ho id hid
    · subst ho
      simp only [Obs.endOf, Option.some.injEq] at hid
      subst hid
      exact h.startLt _ hws _ rfl
  · exact hnd'.2
  · intro v hv
    have hv' : v ∈ s.pending := by
      rw [hp]
      simp only [List.mem_append, List.mem_cons] at hv ⊢
      rcases hv with hv | hv
      · exact .inl hv
      · exact .inr (.inr hv)
    obtain ⟨h1, ⟨t0, h2⟩, h3⟩ := h.pend v hv'
    refine ⟨h1, ⟨t0, List.mem_append_left _ h2⟩, fun o ho => ?_⟩
    simp only [List.mem_append, List.mem_singleton] at ho
    rcases ho with ho | ho
    · exact h3 o ho
    · subst ho
      intro he
      simp only [Obs.endOf, Option.some.injEq] at he
      exact hnd'.1 (he ▸ List.mem_map_of_mem hv)
  · simp only [List.filterMap_append, List.filterMap_cons, Obs.endOf, List.filterMap_nil]
    rw [List.nodup_append]
    refine ⟨h.ends, by simp, ?_⟩
    intro x hx y hy he
    simp only [List.mem_singleton] at hy
    simp only [List.mem_filterMap] at hx
    obtain ⟨o, ho, hox⟩ := hx
    exact hwn o ho (by rw [hox, he, hy])
  · simp only [List.filterMap_append, List.filterMap_cons, Obs.startOf, List.filterMap_nil,
      List.append_nil]
    exact h.starts
  · intro id t hm
    simp only [List.mem_append, List.mem_singleton] at hm
    rcases hm with hm | hm
    · obtain ⟨e, t0, h1, h2⟩ := h.early id t hm
      exact ⟨e, t0, List.mem_append_left _ h1, h2⟩
    · simp only [Obs.ended.injEq] at hm
      obtain ⟨h1, h2, h3⟩ := hm
      subst h1 h2 h3
      simp only at hr
      exact ⟨_, wt, List.mem_append_left _ hws, by omega⟩
  · intro a b id t hl
    rcases split_append hl with ⟨b', hb⟩ | ⟨a', ha, hk⟩
    · exact h.aborts a b' id t hb
    · cases a' with
      | cons y a' => simp at hk
      | nil =>
        simp only [List.nil_append, List.cons.injEq, Obs.ended.injEq] at hk
        obtain ⟨⟨h1, h2, h3⟩, h4⟩ := hk
        subst h2
        simp only at hr
        obtain ⟨c, d, hcd, hst⟩ := hr
        obtain ⟨t0, ht0⟩ := hst w hw
        obtain ⟨c1, c2, hc⟩ := List.append_of_mem ht0
        refine ⟨c1, c2 ++ .stopped :: d, w.expiry, t0, ?_, by simp⟩
        rw [ha, hcd, hc, ← h1]
        simp
  · intro id hid
    rcases h.all id hid with ⟨r', t, hm⟩ | ⟨v, hv, hvi⟩
    · exact .inl ⟨r', t, List.mem_append_left _ hm⟩
    · rw [hp] at hv
      simp only [List.mem_append, List.mem_cons] at hv
      rcases hv with hv | hv | hv
      · exact .inr ⟨v, List.mem_append_left _ hv, hvi⟩
      · subst hv
        exact .inl ⟨r, s.now, by simp [hvi]⟩
      · exact .inr ⟨v, List.mem_append_right _ hv, hvi⟩

theorem endAll_nil {s : Timer} (r : Res) (h : s.pending = []) : s.endAll r = s := by
  cases s; simp only at h; subst h; simp [Timer.endAll]

theorem endAll_cons {s : Timer} {w : Wait} {k : List Wait} (r : Res) (h : s.pending = w :: k) :
    s.endAll r =
      { s with pending := k, log := s.log ++ [.ended w.id r s.now] : Timer }.endAll r := by
  simp [Timer.endAll, h]

theorem Inv.endAll_ok {s : Timer} (h : Inv s) (hr : s.expiry ≤ s.now) : Inv (s.endAll .ok) := by
  generalize hn : s.pending.length = n
  induction n generalizing s with
  | zero => rw [endAll_nil _ (List.length_eq_zero_iff.mp hn)]; exact h
  | succ n ih =>
    match hp : s.pending with
    | [] => rw [hp] at hn; simp at hn
    | w :: k =>
      rw [endAll_cons _ hp]
      refine ih (h.endOne (l := []) hp .ok hr) hr ?_
      rw [hp] at hn; simpa using hn

theorem Inv.endAll_aborted {s : Timer} (h : Inv s) (c d : List Obs) (hr : s.log = c ++ .stopped :: d)
    (hst : ∀ v ∈ s.pending, ∃ t0, .started v.id v.expiry t0 ∈ c) : Inv (s.endAll .aborted) := by
  generalize hn : s.pending.length = n
  induction n generalizing s d with
  | zero => rw [endAll_nil _ (List.length_eq_zero_iff.mp hn)]; exact h
  | succ n ih =>
    match hp : s.pending with
    | [] => rw [hp] at hn; simp at hn
    | w :: k =>
      rw [endAll_cons _ hp]
      refine ih (h.endOne (l := []) hp .aborted ⟨c, d, hr, hst⟩)
        (d ++ [.ended w.id .aborted s.now]) (by simp [hr]) ?_ ?_
      · intro v hv; exact hst v (by rw [hp]; exact List.mem_cons_of_mem _ hv)
      · rw [hp] at hn; simpa using hn

theorem Inv.abort {s : Timer} (h : Inv s) : Inv s.abort :=
  h.stop.endAll_aborted s.log [] rfl (fun v hv => (h.pend v hv).2.1)

theorem abort_pending (s : Timer) : s.abort.pending = [] := rfl

theorem Inv.cancelWait {s : Timer} (h : Inv s) (id : Nat) : Inv (s.step (.cancelWait id)) := by
  simp only [Timer.step]
  by_cases hm : ∃ w ∈ s.pending, w.id = id
  · obtain ⟨w, hw, hid⟩ := hm
    obtain ⟨l, k, hp⟩ := List.append_of_mem hw
    have hnd := h.ids
    rw [hp] at hnd
    simp only [List.map_append, List.map_cons] at hnd
    have hnd' := (List.nodup_middle (l₁ := l.map Wait.id) (l₂ := k.map Wait.id) (a := w.id)).mp hnd
    simp only [List.nodup_cons, List.mem_append, List.mem_map, not_or, not_exists, not_and] at hnd'
    have hl : ∀ v ∈ l, v.id ≠ id := fun v hv he => hnd'.1.1 v hv (he.trans hid.symm)
    have hk : ∀ v ∈ k, v.id ≠ id := fun v hv he => hnd'.1.2 v hv (he.trans hid.symm)
    have f1 : s.pending.filter (fun w => w.id ≠ id) = l ++ k := by
      rw [hp, List.filter_append, List.filter_cons]
      rw [List.filter_eq_self.mpr (by simpa using hl), List.filter_eq_self.mpr (by simpa using hk)]
      simp [hid]
    have f2 : s.pending.filter (fun w => w.id = id) = [w] := by
      rw [hp, List.filter_append, List.filter_cons]
      rw [List.filter_eq_nil_iff.mpr (by simpa using hl), List.filter_eq_nil_iff.mpr (by simpa using hk)]
      simp [hid]
    rw [f1, f2]
    have := h.stop.endOne (l := l) (k := k) (w := w) hp .aborted
      ⟨s.log, [], rfl, fun v hv => (h.pend v hv).2.1⟩
    simpa using this
  · have hn : ∀ w ∈ s.pending, w.id ≠ id := fun w hw he => hm ⟨w, hw, he⟩
    have f1 : s.pending.filter (fun w => w.id ≠ id) = s.pending :=
      List.filter_eq_self.mpr (by simpa using hn)
    have f2 : s.pending.filter (fun w => w.id = id) = [] :=
      List.filter_eq_nil_iff.mpr (by simpa using hn)
    rw [f1, f2]
    exact h.stop

/-- A wait is started. -/
theorem Inv.start {s : Timer} (h : Inv s) :
    Inv { s with next := s.next + 1, log := s.log ++ [.started s.next s.expiry s.now],
                 pending := s.pending ++ [⟨s.next, s.expiry⟩] } := by
  constructor
  · intro o ho id hid
    simp only [List.mem_append, List.mem_singleton] at ho
    rcases ho with ho | ho
    · exact Nat.lt_succ_of_lt (h.startLt o ho id hid)
    · subst ho; simp only [Obs.startOf, Option.some.injEq] at hid; simp only; omega
  · intro o ho id hid
    simp only [List.mem_append, List.mem_singleton] at ho
    rcases ho with ho | ho
    · exact Nat.lt_succ_of_lt (h.endLt o ho id hid)
    · subst ho; cases hid
  · simp only [List.map_append, List.map_cons, List.map_nil]
    rw [List.nodup_append]
    refine ⟨h.ids, by simp, ?_⟩
    intro x hx y hy he
    simp only [List.mem_singleton] at hy
    simp only [List.mem_map] at hx
    obtain ⟨w, hw, hwx⟩ := hx
    obtain ⟨t0, ht0⟩ := (h.pend w hw).2.1
    have := h.startLt _ ht0 _ rfl
    omega
  · intro v hv
    simp only [List.mem_append, List.mem_singleton] at hv
    rcases hv with hv | hv
    · obtain ⟨h1, ⟨t0, h2⟩, h3⟩ := h.pend v hv
      refine ⟨h1, ⟨t0, List.mem_append_left _ h2⟩, fun o ho => ?_⟩
      simp only [List.mem_append, List.mem_singleton] at ho
      rcases ho with ho | ho
      · exact h3 o ho
      · subst ho; simp [Obs.endOf]
    · subst hv
      refine ⟨rfl, ⟨s.now, by simp⟩, fun o ho he => ?_⟩
      simp only [List.mem_append, List.mem_singleton] at ho
      rcases ho with ho | ho
      · exact Nat.lt_irrefl _ (h.endLt o ho _ he)
      · subst ho; cases he
  · simpa [List.filterMap_cons, Obs.endOf] using h.ends
  · simp only [List.filterMap_append, List.filterMap_cons, Obs.startOf, List.filterMap_nil,
      h.starts, List.range_succ]
  · intro id t hm
    simp only [List.mem_append, List.mem_singleton, reduceCtorEq, or_false] at hm
    obtain ⟨e, t0, h1, h2⟩ := h.early id t hm
    exact ⟨e, t0, List.mem_append_left _ h1, h2⟩
  · intro a b id t hl
    rcases split_append hl with ⟨b', hb⟩ | ⟨a', _, hk⟩
    · exact h.aborts a b' id t hb
    · cases a' <;> simp at hk
  · intro id hid
    by_cases he : id = s.next
    · exact .inr ⟨_, List.mem_append_right _ (List.mem_singleton.mpr rfl), he.symm⟩
    · rcases h.all id (by simp only at hid; omega) with ⟨r, t, hm⟩ | ⟨w, hw, hwi⟩
      · exact .inl ⟨r, t, List.mem_append_left _ hm⟩
      · exact .inr ⟨w, List.mem_append_left _ hw, hwi⟩

theorem Inv.step {s : Timer} (h : Inv s) (e : Ev) : Inv (s.step e) := by
  cases e with
  | clock t => exact h.clock t
  | wait =>
    simp only [Timer.step]
    split
    · rename_i hlt
      have := h.start.endOne (l := s.pending) (k := []) (w := ⟨s.next, s.expiry⟩) rfl .ok
        (by simp only; omega)
      simpa using this
    · exact h.start
  | poll =>
    simp only [Timer.step]
    split
    · exact h.endAll_ok ‹_›
    · exact h
  | cancel => exact h.abort
  | cancelWait id => exact h.cancelWait id
  | resetAt tp => exact h.abort.expiry (abort_pending s) tp
  | resetAfter d => exact h.abort.expiry (abort_pending s) _

theorem Inv.run {s : Timer} (h : Inv s) (es : List Ev) : Inv (s.run es) := by
  induction es generalizing s with
  | nil => exact h
  | cons e es ih => exact ih (h.step e)

end Cobalt.Time
