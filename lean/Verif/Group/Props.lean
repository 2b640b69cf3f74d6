import Verif.Group.Lemmas

/-!
# C22 and C23: `wait_group`
-/
namespace Cobalt.Group

/-! ## C22 -/

/-- C22 does not hold: a member that has failed is not removed by the `wait_one` that
reports it. -/
theorem C22_violated : ¬ C22Holds := by
  intro h
  have := h 0 1 [.push 0, .complete 0 (.err 7)] (.waitOne 0 [0]) 0 (.err 7) (by decide)
    ⟨.inr ⟨_, rfl⟩, by decide⟩
  rcases this with ⟨-, h2, -⟩ | ⟨id, hid, ht, -⟩
  · exact absurd h2 (by decide)
  · obtain rfl : id = 0 := by simpa [St.run, St.steps, St.step, St.act, St.can, St.ids, St.complete, St.ended] using hid
    exact absurd ht (by decide)

/-- It keeps being reported: while it is the only member that has ended, every further
`wait_one` throws its exception and leaves the group as it is. -/
theorem C22_failed_again (cn ce : Nat) (es : List Ev) (hl : Legal { normal := cn, except := ce } es)
    (hw : (St.run cn ce es).wait = none) (id x : Nat) (hid : id ∈ (St.run cn ce es).ids)
    (hx : outcome id es = some (.err x))
    (hothers : ∀ j ∈ (St.run cn ce es).ids, j ≠ id → outcome j es = none)
    (ws : List (Nat × List Nat))
    (hp : ∀ p ∈ ws, p.2.Perm (List.range (St.run cn ce es).ids.length)) :
    Legal { normal := cn, except := ce } (es ++ ws.map fun p => .waitOne p.1 p.2) ∧
    (St.run cn ce (es ++ ws.map fun p => .waitOne p.1 p.2)).ids = (St.run cn ce es).ids ∧
    (St.run cn ce (es ++ ws.map fun p => .waitOne p.1 p.2)).log =
      (ws.map fun p => (p.1, Res.err x)).reverse ++ (St.run cn ce es).log := by
  induction ws generalizing es with
  | nil => simpa using hl
  | cons p ws ih =>
    have i := Inv.run hl
    have hc : (St.run cn ce es).can (.waitOne p.1 p.2) = true := by
      have := hp p List.mem_cons_self
      simp only [St.can, hw, Bool.and_true, List.isPerm_iff]
      simpa [St.ids] using this
    have hl' : Legal { normal := cn, except := ce } (es ++ [.waitOne p.1 p.2]) := legal_append hl hc
    obtain ⟨k, hk, hkm⟩ : ∃ (k : Nat) (m : Mem), (St.run cn ce es).members[k]? = some m ∧ m.id = id := by
      obtain ⟨m, hm, e⟩ := List.mem_map.1 hid
      obtain ⟨k, hk⟩ := List.mem_iff_getElem?.1 hm
      exact ⟨k, m, hk, e⟩
    have hrun : (St.run cn ce (es ++ [.waitOne p.1 p.2])).ids = (St.run cn ce es).ids ∧
        (St.run cn ce (es ++ [.waitOne p.1 p.2])).log = (p.1, .err x) :: (St.run cn ce es).log ∧
        (St.run cn ce (es ++ [.waitOne p.1 p.2])).wait = none := by
      rw [run_snoc, step_eq i.ub hc]
      have hne : (St.run cn ce es).members ≠ [] := by
        intro h; simp [St.ids, h] at hid
      have hpp : p.2.Perm (List.range (St.run cn ce es).members.length) := by
        simpa [St.ids] using hp p List.mem_cons_self
      have hdone : (St.run cn ce es).doneAt k = true := by
        rw [doneAt_iff]
        exact ⟨hk, hkm.1, by rw [i.out _ (List.mem_of_getElem? hkm.1), hkm.2, hx]; rfl⟩
      have hkl : k < (St.run cn ce es).members.length := (List.getElem?_eq_some_iff.1 hkm.1).1
      simp only [St.act, St.waitOne, if_neg hne, hw]
      split
      · rename_i hf
        have := find_range hpp hf k hkl
        simp [hdone] at this
      · rename_i j hf
        obtain ⟨hj, hjd⟩ := find_some_range hpp hf
        obtain ⟨m, hm, hms⟩ := (doneAt_iff _ _).1 hjd
        have hmid : m.id = id := by
          refine Classical.byContradiction fun hne => ?_
          rw [i.out _ (List.mem_of_getElem? hm), hothers _ (mem_ids hm) hne] at hms
          cases hms
        rcases wonBy_ok (w := p.1) i.core hm hms with ⟨a, -⟩ | ⟨y, a, b, c⟩
        · rw [hmid, hx] at a; cases a
        · rw [hmid, hx] at a; cases a
          exact ⟨b, c, wonBy_wait _ _ _ _ hm⟩
    have hq : ∀ j, outcome j (es ++ [.waitOne p.1 p.2]) = outcome j es := outcome_quiet rfl
    have := ih (es ++ [.waitOne p.1 p.2]) hl' hrun.2.2 (by rw [hrun.1]; exact hid) (by rw [hq]; exact hx)
      (by rw [hrun.1]; intro j hj hne; rw [hq]; exact hothers j hj hne)
      (by rw [hrun.1]; exact fun q hq => hp q (List.mem_cons_of_mem _ hq))
    rw [hrun.1, hrun.2.1] at this
    simpa using this

/-- With two coroutines in `wait_one` at the same time the group removes, and so
destroys, a member that has not ended, though no member fails. -/
theorem C22_overlap_violated :
    ∃ (es : List Ev) (e : Ev) (w : Nat) (r : Res),
      Legal { normal := 0, except := 1 } (es ++ [e]) ∧
      (∀ id x, outcome id (es ++ [e]) ≠ some (.err x)) ∧
      OneEnds (St.run 0 1 es) e (St.run 0 1 (es ++ [e])) w r ∧
      r = .ok ∧ (St.run 0 1 es).ids = [0] ∧ (St.run 0 1 (es ++ [e])).ids = [] ∧
      outcome 0 (es ++ [e]) = none ∧
      ¬ OneOk (es ++ [e]) (St.run 0 1 es) (St.run 0 1 (es ++ [e])) r := by
  refine ⟨[.push 0, .waitOne 0 [0]], .waitOne 1 [0], 0, .ok, by decide, by simp [outcome],
    ⟨.inl ⟨1, by decide⟩, by decide⟩, rfl, by decide, by decide, by decide, ?_⟩
  rintro (⟨h, -⟩ | ⟨id, -, -, ⟨h, -⟩ | ⟨x, h, -⟩⟩)
  · exact absurd h (by decide)
  · simp [outcome] at h
  · simp [outcome] at h

/-- Two `wait_one` are not in progress at the same time. -/
def NoOverlap (s : St) (e : Ev) : Prop :=
  ∀ w' n w order, s.wait = some (.one w' n) → e ≠ .waitOne w order

/-- What holds of C22: unless it overlaps with another one, a `wait_one` ends with the
outcome of a member that has ended. If this is success, exactly that member is removed. If
it is an exception, nothing is removed (see `C22_violated`). -/
theorem C22_wait_one_partial (cn ce : Nat) (es : List Ev) (e : Ev) (w : Nat) (r : Res)
    (hl : Legal { normal := cn, except := ce } (es ++ [e]))
    (hno : NoOverlap (St.run cn ce es) e)
    (he : OneEnds (St.run cn ce es) e (St.run cn ce (es ++ [e])) w r) :
    OneOk (es ++ [e]) (St.run cn ce es) (St.run cn ce (es ++ [e])) r ∨
    ∃ id ∈ (St.run cn ce es).ids, ∃ x, outcome id (es ++ [e]) = some (.err x) ∧ r = .err x ∧
      (St.run cn ce (es ++ [e])).ids = (St.run cn ce es).ids := by
  obtain ⟨hl1, hc⟩ := legal_snoc hl
  have i := Inv.run hl1
  rw [run_snoc] at he ⊢
  change (St.run cn ce es).can e = true at hc
  generalize St.run cn ce es = s at *
  rw [step_eq i.ub hc] at he ⊢
  obtain ⟨hwhich, hnew⟩ := he
  cases e with
  | waitOne w0 order =>
    have hw : s.wait = none := by
      cases hw : s.wait with
      | none => rfl
      | some x =>
        cases x with
        | one w' n => exact absurd rfl (hno w' n w0 order hw)
        | all w' ids => simp [St.can, hw] at hc
    have hpp : order.Perm (List.range s.members.length) := by
      simp only [St.can, Bool.and_eq_true] at hc
      exact List.isPerm_iff.1 hc.1
    have hq : ∀ j, outcome j (es ++ [.waitOne w0 order]) = outcome j es := outcome_quiet rfl
    simp only [hw] at hwhich
    obtain rfl : w = w0 := (by simpa using hwhich : w0 = w).symm
    simp only [St.act, St.waitOne, hw] at hnew ⊢
    split at hnew
    · rename_i hm
      rw [if_pos hm]
      rw [take_new] at hnew
      left; left
      exact ⟨by simp [St.ids, hm], by simp [St.ids, hm], by simpa using hnew⟩
    · rename_i hne
      rw [if_neg hne]
      split at hnew
      · simp at hnew
      · rename_i k hf
        obtain ⟨hk, hkd⟩ := find_some_range hpp hf
        obtain ⟨m, hm, hms⟩ := (doneAt_iff _ _).1 hkd
        rcases wonBy_ok (w := w) i.core hm hms with ⟨a, b, c⟩ | ⟨x, a, b, c⟩
        · rw [c, take_new] at hnew
          left; right
          exact ⟨m.id, mem_ids hm, b, .inl ⟨by rw [hq, a], by simpa using hnew⟩⟩
        · rw [c, take_new] at hnew
          right
          exact ⟨m.id, mem_ids hm, x, by rw [hq, a], by simpa using hnew, b⟩
  | complete id o =>
    obtain ⟨n, hw⟩ : ∃ n, s.wait = some (.one w n) := by simpa using hwhich
    obtain ⟨m, hm, hmid⟩ := findIdx_complete hc
    obtain ⟨m', hm', hid', hout'⟩ := ended_at (o := o) hm hmid
    have hcore := Core.ended i hc
    have hids : ({ s with members := s.ended id o } : St).ids = s.ids := ended_ids s id o
    simp only [St.act, complete_one hw] at hnew ⊢
    split at hnew
    · rename_i hlt
      rw [if_pos hlt]
      rcases wonBy_ok (w := w) hcore (m := m') hm' (by simp [hout']) with ⟨a, b, c⟩ | ⟨x, a, b, c⟩
      · rw [c, take_new] at hnew
        left; right
        refine ⟨m'.id, by rw [hid', ← hmid]; exact mem_ids hm, ?_, .inl ⟨a, by simpa using hnew⟩⟩
        rw [b, hids]
      · rw [c, take_new] at hnew
        right
        refine ⟨m'.id, by rw [hid', ← hmid]; exact mem_ids hm, x, a, by simpa using hnew, ?_⟩
        rw [b, hids]
    · simp at hnew
  | push id => simp [St.act] at hnew
  | waitAll w0 =>
    obtain ⟨n, hw⟩ : ∃ n, s.wait = some (.one w n) := by simpa using hwhich
    simp [St.can, hw] at hc
  | exit w0 b =>
    obtain ⟨n, hw⟩ : ∃ n, s.wait = some (.one w n) := by simpa using hwhich
    simp [St.can, hw] at hc
  | cancel ct => simp [St.act, St.cancelAll] at hnew
  | reap => simp [St.act, St.reap] at hnew

/-- A pending `wait_one` has members to wait for, and none of them has ended. -/
theorem C22_pending (cn ce : Nat) (es : List Ev) (hl : Legal { normal := cn, except := ce } es) (w n : Nat)
    (hw : (St.run cn ce es).wait = some (.one w n)) :
    0 < n ∧ n ≤ (St.run cn ce es).ids.length ∧
    ∀ id ∈ (St.run cn ce es).ids.take n, outcome id es = none := by
  obtain ⟨a, b, c⟩ := (Inv.run hl).one w n hw
  refine ⟨a, by simpa [St.ids] using b, ?_⟩
  intro id hid
  obtain ⟨k, hk⟩ := List.mem_iff_getElem?.1 hid
  rw [List.getElem?_take] at hk
  split at hk
  · rename_i hlt
    simp only [St.ids, List.getElem?_map, Option.map_eq_some_iff] at hk
    obtain ⟨m, hm, rfl⟩ := hk
    rw [← (Inv.run hl).out _ (List.mem_of_getElem? hm)]
    exact c k m hlt hm
  · cases hk

/-- A `wait_one` that is started ends or is pending, and it is pending until it ends. -/
theorem C22_not_lost (cn ce : Nat) (es : List Ev) (e : Ev) (w : Nat)
    (hl : Legal { normal := cn, except := ce } (es ++ [e]))
    (hw : (∃ n, (St.run cn ce es).wait = some (.one w n)) ∨ ∃ order, e = .waitOne w order) :
    (∃ n, (St.run cn ce (es ++ [e])).wait = some (.one w n)) ∨
    ∃ r, OneEnds (St.run cn ce es) e (St.run cn ce (es ++ [e])) w r := by
  obtain ⟨hl1, hc⟩ := legal_snoc hl
  have i := Inv.run hl1
  rw [run_snoc]
  change (St.run cn ce es).can e = true at hc
  generalize St.run cn ce es = s at *
  rw [step_eq i.ub hc]
  cases e with
  | waitOne w0 order =>
    have hpp : order.Perm (List.range s.members.length) := by
      simp only [St.can, Bool.and_eq_true] at hc
      exact List.isPerm_iff.1 hc.1
    simp only [OneEnds, St.act, St.waitOne]
    split
    · rename_i hm
      rcases hw with ⟨n, hw⟩ | ⟨o, e⟩
      · exact .inl ⟨n, hw⟩
      · cases e; exact .inr ⟨.ok, .inr ⟨_, rfl⟩, by rw [take_new]; simp⟩
    · rename_i hne
      split
      · rename_i w' n' hw'
        obtain ⟨n0, nle, nd⟩ := i.one _ _ hw'
        split
        · rename_i hf
          have := find_range hpp hf 0 (List.length_pos_iff.2 hne)
          simp [n0] at this
        · rename_i k hf
          obtain ⟨hk, hkd⟩ := find_some_range hpp hf
          have hm := List.getElem?_eq_getElem hk
          split
          · rename_i hd
            obtain ⟨m, hm, hms⟩ := (doneAt_iff _ _).1 hd
            rcases hw with ⟨n, hw⟩ | ⟨o, e⟩
            · exact .inl ⟨n, hw⟩
            · cases e
              rcases wonBy_ok (w := w) i.core hm hms with ⟨a, b, c⟩ | ⟨x, a, b, c⟩
              · exact .inr ⟨.ok, .inr ⟨_, rfl⟩, by rw [c, take_new]; simp⟩
              · exact .inr ⟨.err x, .inr ⟨_, rfl⟩, by rw [c, take_new]; simp⟩
          · right
            obtain ⟨r', hr'⟩ : ∃ r', (St.wonBy s w' k).log = (w', r') :: s.log := by
              rcases wonBy_eq s w' k _ hm with ⟨x, -, e⟩ | ⟨-, e⟩ <;> rw [e]
              · exact ⟨_, rfl⟩
              · exact ⟨_, rfl⟩
            have htake : ∀ a b : Nat × Res, (a :: b :: s.log).take ((a :: b :: s.log).length - s.log.length) = [a, b] := by
              intro a b
              have : (a :: b :: s.log).length - s.log.length = 2 := by simp only [List.length_cons]; omega
              rw [this]; rfl
            rcases hw with ⟨n, hw⟩ | ⟨o, e⟩
            · obtain ⟨rfl, -⟩ : w' = w ∧ n' = n := by rw [hw'] at hw; simpa using hw
              exact ⟨r', .inl ⟨n, hw⟩, by rw [hr', htake]; simp⟩
            · cases e
              exact ⟨_, .inr ⟨_, rfl⟩, by rw [hr', htake]; exact List.mem_cons_self⟩
      · rename_i hnw
        have hwe : w = w0 := by
          rcases hw with ⟨n, hw⟩ | ⟨o, e⟩
          · exact absurd hw (hnw w n)
          · cases e; rfl
        subst hwe
        split
        · exact .inl ⟨_, rfl⟩
        · rename_i k hf
          obtain ⟨hk, hkd⟩ := find_some_range hpp hf
          obtain ⟨m, hm, hms⟩ := (doneAt_iff _ _).1 hkd
          rcases wonBy_ok (w := w) i.core hm hms with ⟨a, b, c⟩ | ⟨x, a, b, c⟩
          · exact .inr ⟨.ok, .inr ⟨_, rfl⟩, by rw [c, take_new]; simp⟩
          · exact .inr ⟨.err x, .inr ⟨_, rfl⟩, by rw [c, take_new]; simp⟩
  | complete id o =>
    obtain ⟨n, hw⟩ : ∃ n, s.wait = some (.one w n) := by simpa using hw
    obtain ⟨m, hm, hmid⟩ := findIdx_complete hc
    obtain ⟨m', hm', hid', hout'⟩ := ended_at (o := o) hm hmid
    simp only [OneEnds, St.act, complete_one hw]
    split
    · right
      rcases wonBy_ok (w := w) (Core.ended i hc) (m := m') hm' (by simp [hout']) with ⟨a, b, c⟩ | ⟨x, a, b, c⟩
      · exact ⟨.ok, .inl ⟨n, hw⟩, by rw [c, take_new]; simp⟩
      · exact ⟨.err x, .inl ⟨n, hw⟩, by rw [c, take_new]; simp⟩
    · exact .inl ⟨n, hw⟩
  | push id =>
    obtain ⟨n, hw⟩ : ∃ n, s.wait = some (.one w n) := by simpa using hw
    exact .inl ⟨n, hw⟩
  | waitAll w0 =>
    obtain ⟨n, hw⟩ : ∃ n, s.wait = some (.one w n) := by simpa using hw
    simp [St.can, hw] at hc
  | exit w0 b =>
    obtain ⟨n, hw⟩ : ∃ n, s.wait = some (.one w n) := by simpa using hw
    simp [St.can, hw] at hc
  | cancel ct =>
    obtain ⟨n, hw⟩ : ∃ n, s.wait = some (.one w n) := by simpa using hw
    exact .inl ⟨n, hw⟩
  | reap =>
    obtain ⟨n, hw⟩ : ∃ n, s.wait = some (.one w n) := by simpa using hw
    exact .inl ⟨n, hw⟩

/-- Every promise added is a member or was removed, once. -/
theorem C22_each_once (cn ce : Nat) (es : List Ev) (hl : Legal { normal := cn, except := ce } es) :
    ((St.run cn ce es).gone.map Mem.id ++ (St.run cn ce es).ids).Perm (pushes es) ∧ (pushes es).Nodup :=
  ⟨(Inv.run hl).perm, (Inv.run hl).nodup⟩

example : Legal { normal := 0, except := 1 } [.push 0, .push 1, .waitOne 0 [1, 0], .complete 1 .ok] ∧
    (St.run 0 1 [.push 0, .push 1, .waitOne 0 [1, 0]]).wait = some (.one 0 2) ∧
    (St.run 0 1 [.push 0, .push 1, .waitOne 0 [1, 0], .complete 1 .ok]).ids = [0] ∧
    (St.run 0 1 [.push 0, .push 1, .waitOne 0 [1, 0], .complete 1 .ok]).log = [(0, .ok)] := by decide

example : Legal { normal := 0, except := 1 } [.push 0, .push 1, .complete 1 (.err 7)] ∧
    (St.run 0 1 [.push 0, .push 1, .complete 1 (.err 7)]).wait = none ∧
    (St.run 0 1 ([.push 0, .push 1, .complete 1 (.err 7)] ++ [.waitOne 0 [0, 1], .waitOne 1 [1, 0]])).log =
      [(1, .err 7), (0, .err 7)] := by decide

/-! ## C23 -/

/-- C23 does not hold for `reap`: a member whose failure was reported stays for ever. -/
theorem C23_reap_violated : ¬ C23Reap := by
  intro h
  exact absurd (h 0 1 [.push 0, .complete 0 (.err 7), .waitOne 0 [0]] (by decide)).1 (by decide)

/-- What holds for `reap`: what it removes has ended and the number is right; it is exact
when no `wait` is pending and no member's failure was reported by `wait_one`. -/
theorem C23_reap_partial (cn ce : Nat) (es : List Ev) (hl : Legal { normal := cn, except := ce } es) :
    (∃ k, (St.run cn ce (es ++ [.reap])).reaps = k :: (St.run cn ce es).reaps ∧
      (St.run cn ce es).ids.length = k + (St.run cn ce (es ++ [.reap])).ids.length) ∧
    (St.run cn ce (es ++ [.reap])).ids.Sublist (St.run cn ce es).ids ∧
    (∀ id ∈ (St.run cn ce es).ids, outcome id es = none → id ∈ (St.run cn ce (es ++ [.reap])).ids) ∧
    ((∀ w ids, (St.run cn ce es).wait ≠ some (.all w ids)) →
      (∀ id ∈ (St.run cn ce es).ids, ∀ x w, outcome id es = some (.err x) → (w, .err x) ∉ (St.run cn ce es).log) →
      ReapOk es (St.run cn ce es) (St.run cn ce (es ++ [.reap]))) := by
  have i := Inv.run hl
  rw [run_snoc]
  generalize St.run cn ce es = s at *
  rw [step_eq i.ub rfl]
  refine ⟨⟨_, rfl, ?_⟩, ?_, ?_, ?_⟩
  · have := (filter_append_perm (fun m : Mem => m.out.isSome && !m.taken) s.members).length_eq
    simp only [St.ids, St.act, St.reap, List.length_map]
    rw [List.length_append] at this
    exact this.symm
  · exact (List.filter_sublist).map _
  · intro id hid ho
    obtain ⟨m, hm, rfl⟩ := List.mem_map.1 hid
    refine List.mem_map.2 ⟨m, List.mem_filter.2 ⟨hm, ?_⟩, rfl⟩
    rw [← i.out _ hm] at ho
    simp [ho]
  · intro hw hf
    have ht : ∀ m ∈ s.members, m.taken = false := by
      intro m hm
      cases htk : m.taken with
      | false => rfl
      | true =>
        obtain ⟨-, ⟨x, w, a, b⟩ | ⟨w, ids, a, -⟩⟩ := i.taken m hm htk
        · exact absurd b (hf m.id (List.mem_map.2 ⟨m, hm, rfl⟩) x w (by rw [← i.out _ hm, a]))
        · exact absurd a (hw w ids)
    constructor
    · simp only [St.ids, St.act, St.reap, List.filter_map]
      congr 1
      refine List.filter_congr fun m hm => ?_
      simp only [Function.comp_apply, ht m hm, ← i.out _ hm]
      cases m.out <;> rfl
    · simp only [St.ids, St.act, St.reap, List.filter_map, List.length_map]
      congr 2
      refine List.filter_congr fun m hm => ?_
      simp only [Function.comp_apply, ht m hm, ← i.out _ hm]
      cases m.out <;> rfl

example : Legal { normal := 0, except := 1 } [.push 0, .push 1, .push 2, .complete 1 .ok, .complete 2 (.err 3)] ∧
    (St.run 0 1 [.push 0, .push 1, .push 2, .complete 1 .ok, .complete 2 (.err 3)]).log = [] ∧
    (St.run 0 1 [.push 0, .push 1, .push 2, .complete 1 .ok, .complete 2 (.err 3), .reap]).reaps = [2] ∧
    (St.run 0 1 [.push 0, .push 1, .push 2, .complete 1 .ok, .complete 2 (.err 3), .reap]).ids = [0] := by decide

/-- C23 does not hold for `wait`: a member added while it is pending is destroyed when the
others have ended, whether or not it has ended itself. -/
theorem C23_wait_violated : ¬ C23Wait := by
  intro h
  have := h 0 1 [.push 0, .waitAll 0, .push 1] (.complete 0 .ok) 0 (by decide)
    ⟨.inl ⟨[0], by decide⟩, .ok, by decide⟩
  exact absurd (this.2 1 (by decide)) (by decide)

/-- What holds for `wait` and `await_exit`: when one ends, the group is empty and all the
members it waited for have ended; if none was added in the meantime these are all. -/
theorem C23_wait_partial (cn ce : Nat) (es : List Ev) (e : Ev) (w : Nat)
    (hl : Legal { normal := cn, except := ce } (es ++ [e]))
    (he : AllEnds (St.run cn ce es) e (St.run cn ce (es ++ [e])) w) :
    (St.run cn ce (es ++ [e])).ids = [] ∧
    (∀ ids, (St.run cn ce es).wait = some (.all w ids) → ∀ id ∈ ids, (outcome id (es ++ [e])).isSome) ∧
    ((∀ ids, (St.run cn ce es).wait = some (.all w ids) → ∀ id ∈ (St.run cn ce es).ids, id ∈ ids) →
      AllOk (es ++ [e]) (St.run cn ce es) (St.run cn ce (es ++ [e]))) := by
  obtain ⟨hl1, hc⟩ := legal_snoc hl
  have i := Inv.run hl1
  rw [run_snoc] at he ⊢
  change (St.run cn ce es).can e = true at hc
  generalize St.run cn ce es = s at *
  rw [step_eq i.ub hc] at he ⊢
  obtain ⟨hwhich, r, hr⟩ := he
  cases e with
  | push id => exact absurd hr (cons_ne _ _)
  | cancel ct => exact absurd hr (cons_ne _ _)
  | reap => exact absurd hr (cons_ne _ _)
  | waitOne w0 order =>
    obtain ⟨ids, hw⟩ : ∃ ids, s.wait = some (.all w ids) := by simpa using hwhich
    simp [St.can, hw] at hc
  | waitAll w0 =>
    have hw : s.wait = none := by simpa [St.can] using hc
    have hq : ∀ j, outcome j (es ++ [.waitAll w0]) = outcome j es := outcome_quiet rfl
    rcases waitAll_cases w0 i with ⟨a, b, c⟩ | ⟨a, b, -⟩
    · refine ⟨a, by simp [hw], fun _ => ⟨a, fun id hid => ?_⟩⟩
      rw [hq]; exact c id hid
    · simp only [St.act, b] at hr
      exact absurd hr (cons_ne _ _)
  | exit w0 x =>
    have hw : s.wait = none := by simpa [St.can] using hc
    have hq : ∀ j, outcome j (es ++ [.exit w0 x]) = outcome j es := outcome_quiet rfl
    obtain ⟨s', h1, h2, h3, h4, -⟩ := exit_eq s w0 x
    simp only [St.act, h1] at hr ⊢
    rcases waitAll_cases w0 (h4 _ i) with ⟨a, b, c⟩ | ⟨a, b, -⟩
    · refine ⟨a, by simp [hw], fun _ => ⟨a, fun id hid => ?_⟩⟩
      rw [hq]; exact c id (by rw [h2]; exact hid)
    · rw [b, h3] at hr
      exact absurd hr (cons_ne _ _)
  | complete id o =>
    obtain ⟨ids, hw⟩ : ∃ ids, s.wait = some (.all w ids) := by simpa using hwhich
    have hcore := Core.ended i hc
    simp only [St.act, complete_all hw] at hr ⊢
    split at hr
    · rename_i hall
      rw [if_pos hall]
      have hids : ∀ id' ∈ ids, (outcome id' (es ++ [.complete id o])).isSome := by
        intro id' hid'
        have hmem := (i.all _ _ hw).1 id' hid'
        rw [← ended_ids s id o] at hmem
        obtain ⟨m, hm, rfl⟩ := List.mem_map.1 hmem
        rw [← hcore.out _ hm]
        have := List.all_eq_true.1 hall m hm
        simpa [hid'] using this
      refine ⟨rfl, ?_, ?_⟩
      · intro ids' h
        obtain rfl : ids = ids' := by rw [hw] at h; simpa using h
        exact hids
      · intro hsub
        exact ⟨rfl, fun id' hid' => hids _ (hsub ids hw id' hid')⟩
    · exact absurd hr (cons_ne _ _)

/-- A pending `wait` waits for members that are in the group, and one of them has not
ended. -/
theorem C23_pending (cn ce : Nat) (es : List Ev) (hl : Legal { normal := cn, except := ce } es) (w : Nat)
    (ids : List Nat) (hw : (St.run cn ce es).wait = some (.all w ids)) :
    (∀ id ∈ ids, id ∈ (St.run cn ce es).ids) ∧ ∃ id ∈ ids, outcome id es = none := by
  obtain ⟨a, ⟨m, hm, b, c⟩, -⟩ := (Inv.run hl).all w ids hw
  exact ⟨a, m.id, b, by rw [← (Inv.run hl).out _ hm, c]⟩

/-- `wait` and `await_exit` wait for the members there are, and keep waiting for these
until they end. -/
theorem C23_not_lost (cn ce : Nat) (es : List Ev) (e : Ev) (w : Nat)
    (hl : Legal { normal := cn, except := ce } (es ++ [e])) :
    (e = .waitAll w ∨ (∃ x, e = .exit w x) →
      (St.run cn ce (es ++ [e])).wait = some (.all w (St.run cn ce es).ids) ∨
      AllEnds (St.run cn ce es) e (St.run cn ce (es ++ [e])) w) ∧
    (∀ ids, (St.run cn ce es).wait = some (.all w ids) →
      (St.run cn ce (es ++ [e])).wait = some (.all w ids) ∨
      AllEnds (St.run cn ce es) e (St.run cn ce (es ++ [e])) w) := by
  obtain ⟨hl1, hc⟩ := legal_snoc hl
  have i := Inv.run hl1
  rw [run_snoc]
  change (St.run cn ce es).can e = true at hc
  generalize St.run cn ce es = s at *
  rw [step_eq i.ub hc]
  constructor
  · rintro (rfl | ⟨x, rfl⟩)
    · rcases waitAll_cases w i with ⟨a, b, c⟩ | ⟨a, b, -⟩
      · exact .inr ⟨.inr (.inl rfl), _, b⟩
      · exact .inl a
    · obtain ⟨s', h1, h2, h3, h4, -⟩ := exit_eq s w x
      simp only [AllEnds, St.act, h1]
      rcases waitAll_cases w (h4 _ i) with ⟨a, b, c⟩ | ⟨a, b, -⟩
      · exact .inr ⟨.inr (.inr ⟨x, rfl⟩), .ok, by rw [b, h3]⟩
      · exact .inl (by rw [a, h2])
  · intro ids hw
    cases e with
    | push id => exact .inl hw
    | cancel ct => exact .inl hw
    | reap => exact .inl hw
    | waitOne w0 order => simp [St.can, hw] at hc
    | waitAll w0 => simp [St.can, hw] at hc
    | exit w0 x => simp [St.can, hw] at hc
    | complete id o =>
      simp only [AllEnds, St.act, complete_all hw]
      split
      · exact .inr ⟨.inl ⟨ids, hw⟩, .ok, rfl⟩
      · exact .inl hw

/-- `await_exit` cancels every member that has not ended, once, with the type for the way
the scope was left, and with nothing for the type `none`. -/
theorem C23_exit_cancels (cn ce : Nat) (es : List Ev) (w : Nat) (failed : Bool)
    (hl : Legal { normal := cn, except := ce } (es ++ [.exit w failed])) :
    let ct := if failed then ce else cn
    (∀ m ∈ (St.run cn ce es).members, m.out = none →
      { m with cancels := if ct = 0 then m.cancels else ct :: m.cancels } ∈
        (St.run cn ce (es ++ [.exit w failed])).members) ∧
    ((∃ m ∈ (St.run cn ce es).members, m.out = none) →
      (St.run cn ce (es ++ [.exit w failed])).ids = (St.run cn ce es).ids) ∧
    (∀ m ∈ (St.run cn ce es).members, m.out ≠ none →
      ∀ m' ∈ (St.run cn ce (es ++ [.exit w failed])).members, m'.id = m.id → m'.cancels = m.cancels) := by
  obtain ⟨hl1, hc⟩ := legal_snoc hl
  have i := Inv.run hl1
  obtain ⟨t1, t2⟩ := run_types cn ce es
  rw [run_snoc]
  change (St.run cn ce es).can _ = true at hc
  generalize St.run cn ce es = s at *
  rw [step_eq i.ub hc]
  obtain ⟨s', h1, h2, h3, h4, h5⟩ := exit_eq s w failed
  intro ct
  have hct : (if failed then s.except else s.normal) = ct := by rw [t1, t2]
  rw [hct] at h5
  simp only [St.act, h1]
  have hmem : ∀ m ∈ s.members, m.out = none →
      { m with cancels := if ct = 0 then m.cancels else ct :: m.cancels } ∈ s'.members := by
    intro m hm ho
    by_cases h0 : ct = 0
    · simp only [h0, ne_eq, not_true, if_false] at h5
      simpa [h0, h5] using hm
    · simp only [ne_eq, h0, not_false_iff, if_true] at h5
      simp only [h0, if_false]
      rw [h5]
      exact List.mem_map.2 ⟨m, hm, by simp [ho]⟩
  have hnd : s.ids.Nodup := i.nodupM
  have hnone : ∀ m ∈ s.members, m.out ≠ none → m ∈ s'.members := by
    intro m hm ho
    by_cases h0 : ct = 0
    · simp only [h0, ne_eq, not_true, if_false] at h5
      exact h5 ▸ hm
    · simp only [ne_eq, h0, not_false_iff, if_true] at h5
      rw [h5]
      exact List.mem_map.2 ⟨m, hm, by simp [ho]⟩
  have hnd' : (s'.members.map Mem.id).Nodup := by
    change s'.ids.Nodup
    rw [h2]; exact hnd
  rcases waitAll_cases w (h4 _ i) with ⟨a, b, c⟩ | ⟨a, b, d⟩
  · have hall : ∀ m ∈ s.members, m.out ≠ none := by
      intro m hm ho
      have := c m.id (by rw [h2]; exact List.mem_map.2 ⟨m, hm, rfl⟩)
      rw [← i.out _ hm, ho] at this
      cases this
    have hempty : (St.waitAll s' w).members = [] := by simpa [St.ids] using a
    refine ⟨fun m hm ho => absurd ho (hall m hm), ?_, ?_⟩
    · rintro ⟨m, hm, ho⟩; exact absurd ho (hall m hm)
    · rw [hempty]; simp
  · refine ⟨?_, ?_, ?_⟩
    · intro m hm ho
      rw [d]
      exact List.mem_map.2 ⟨_, hmem m hm ho, by simp [ho]⟩
    · intro _
      rw [St.ids, d, ← h2]
      simp [St.ids, List.map_map, Function.comp_def]
    · intro m hm ho m' hm' hid
      rw [d] at hm'
      obtain ⟨m0, hm0, rfl⟩ := List.mem_map.1 hm'
      have : m0 = m := List.inj_on_of_nodup_map hnd' hm0 (hnone m hm ho) hid
      rw [this]

example : Legal { normal := 0, except := 5 } [.push 0, .push 1, .complete 1 .ok, .exit 9 true, .complete 0 (.err 2)] ∧
    (St.run 0 5 [.push 0, .push 1, .complete 1 .ok, .exit 9 true]).members.map Mem.cancels = [[5], []] ∧
    (St.run 0 5 [.push 0, .push 1, .complete 1 .ok, .exit 9 true]).wait = some (.all 9 [0, 1]) ∧
    (St.run 0 5 [.push 0, .push 1, .complete 1 .ok, .exit 9 true, .complete 0 (.err 2)]).log = [(9, .ok)] ∧
    (St.run 0 5 [.push 0, .push 1, .complete 1 .ok, .exit 9 true, .complete 0 (.err 2)]).ids = [] := by decide

example : (St.run 0 5 [.push 0, .push 1, .exit 9 false]).members.map Mem.cancels = [[], []] := by decide

end Cobalt.Group
