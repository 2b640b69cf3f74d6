import Verif.Group.ExactLemmas
import Verif.Group.Props

/-!
# C22 and C23, exactly
-/
namespace Cobalt.Group

/-- How a `wait_one` ends: as it should, with success; with the failure of a member that
stays in the group; or, if it clashes with another one, by `already_awaited`, and the other one as if
a member had ended that has not. -/
theorem C22_ends (cn ce : Nat) (es : List Ev) (e : Ev) (w : Nat) (r : Res)
    (hl : Legal { normal := cn, except := ce } (es ++ [e]))
    (he : OneEnds (St.run cn ce es) e (St.run cn ce (es ++ [e])) w r) :
    (¬ Clash es (St.run cn ce es) e ∧ r = .ok ∧
      OneOk (es ++ [e]) (St.run cn ce es) (St.run cn ce (es ++ [e])) r) ∨
    (¬ Clash es (St.run cn ce es) e ∧ (∃ id ∈ (St.run cn ce es).ids, ∃ x,
      outcome id (es ++ [e]) = some (.err x) ∧ r = .err x) ∧
      (St.run cn ce (es ++ [e])).ids = (St.run cn ce es).ids) ∨
    (Clash es (St.run cn ce es) e ∧ (∃ id ∈ (St.run cn ce es).ids, outcome id (es ++ [e]) = none ∧
      (St.run cn ce (es ++ [e])).ids = (St.run cn ce es).ids.erase id) ∧ (r = .alreadyAwaited ∨ r = .ok)) := by
  by_cases hno : NoOverlap (St.run cn ce es) e
  · -- as before
    obtain ⟨hl1, hc⟩ := legal_snoc hl
    have i := Inv.run hl1
    have hcl : ¬ Clash es (St.run cn ce es) e := by
      rintro ⟨w0, order, k, rfl, hf, hn⟩
      have := List.find?_some hf
      rw [hn, Bool.false_or] at this
      unfold St.waitedAt at this
      split at this
      · rename_i w' n hw
        exact hno w' n w0 order hw rfl
      · cases this
    rw [run_snoc] at he ⊢
    change (St.run cn ce es).can e = true at hc
    generalize St.run cn ce es = s at *
    rw [step_eq i.ub hc] at he ⊢
    obtain ⟨hwhich, hnew⟩ := he
    cases e with
    | waitOne w0 order =>
      have hw : s.wait = none := by
        cases hw : s.wait with
        | none => rfl
        | some x =>
          cases x with
          | one w' n => exact absurd rfl (hno w' n w0 order hw)
          | all w' ids => simp [St.can, hw] at hc
      have hpp : order.Perm (List.range s.members.length) := by
        simp only [St.can, Bool.and_eq_true] at hc
        exact List.isPerm_iff.1 hc.1
      have hq : ∀ j, outcome j (es ++ [.waitOne w0 order]) = outcome j es := outcome_quiet rfl
      simp only [hw] at hwhich
      obtain rfl : w = w0 := (by simpa using hwhich : w0 = w).symm
      simp only [St.act, St.waitOne, hw] at hnew ⊢
      split at hnew
      · rename_i hm
        rw [if_pos hm]
        rw [take_new] at hnew
        have hr : r = .ok := by simpa using hnew
        exact .inl ⟨hcl, hr, .inl ⟨by simp [St.ids, hm], by simp [St.ids, hm], hr⟩⟩
      · rename_i hne
        rw [if_neg hne]
        split at hnew
        · simp at hnew
        · rename_i k hf
          obtain ⟨hk, hkd⟩ := find_some_range hpp hf
          obtain ⟨m, hm, hms⟩ := (doneAt_iff _ _).1 hkd
          rcases wonBy_ok (w := w) i.core hm hms with ⟨a, b, c⟩ | ⟨x, a, b, c⟩
          · rw [c, take_new] at hnew
            have hr : r = .ok := by simpa using hnew
            exact .inl ⟨hcl, hr, .inr ⟨m.id, mem_ids hm, b, .inl ⟨by rw [hq, a], hr⟩⟩⟩
          · rw [c, take_new] at hnew
            exact .inr (.inl ⟨hcl, ⟨m.id, mem_ids hm, x, by rw [hq, a], by simpa using hnew⟩, b⟩)
    | complete id o =>
      obtain ⟨n, hw⟩ : ∃ n, s.wait = some (.one w n) := by simpa using hwhich
      obtain ⟨m, hm, hmid⟩ := findIdx_complete hc
      obtain ⟨m', hm', hid', hout'⟩ := ended_at (o := o) hm hmid
      have hcore := Core.ended i hc
      have hids : ({ s with members := s.ended id o } : St).ids = s.ids := ended_ids s id o
      simp only [St.act, complete_one hw] at hnew ⊢
      split at hnew
      · rename_i hlt
        rw [if_pos hlt]
        rcases wonBy_ok (w := w) hcore (m := m') hm' (by simp [hout']) with ⟨a, b, c⟩ | ⟨x, a, b, c⟩
        · rw [c, take_new] at hnew
          have hr : r = .ok := by simpa using hnew
          refine .inl ⟨hcl, hr, .inr ⟨m'.id, by rw [hid', ← hmid]; exact mem_ids hm, ?_, .inl ⟨a, hr⟩⟩⟩
          rw [b, hids]
        · rw [c, take_new] at hnew
          refine .inr (.inl ⟨hcl, ⟨m'.id, by rw [hid', ← hmid]; exact mem_ids hm, x, a, by simpa using hnew⟩, ?_⟩)
          rw [b, hids]
      · simp at hnew
    | push id => simp [St.act] at hnew
    | waitAll w0 =>
      obtain ⟨n, hw⟩ : ∃ n, s.wait = some (.one w n) := by simpa using hwhich
      simp [St.can, hw] at hc
    | exit w0 b =>
      obtain ⟨n, hw⟩ : ∃ n, s.wait = some (.one w n) := by simpa using hwhich
      simp [St.can, hw] at hc
    | cancel ct => simp [St.act, St.cancelAll] at hnew
    | reap => simp [St.act, St.reap] at hnew
  · -- two at once
    have hov : ∃ w' n w0 order, (St.run cn ce es).wait = some (.one w' n) ∧ e = .waitOne w0 order := by
      apply Classical.byContradiction
      intro h
      apply hno
      intro w' n w0 order h1 h2
      exact h ⟨w', n, w0, order, h1, h2⟩
    obtain ⟨w', n, w0, order, hw, rfl⟩ := hov
    obtain ⟨hl1, hc⟩ := legal_snoc hl
    have i := Inv.run hl1
    rw [run_snoc] at he ⊢
    change (St.run cn ce es).can _ = true at hc
    generalize St.run cn ce es = s at *
    rw [step_eq i.ub hc] at he ⊢
    have hpp : order.Perm (List.range s.members.length) := by
      simp only [St.can, Bool.and_eq_true] at hc
      exact List.isPerm_iff.1 hc.1
    have hq : ∀ j, outcome j (es ++ [.waitOne w0 order]) = outcome j es := outcome_quiet rfl
    obtain ⟨hn0, hnl, -⟩ := i.one w' n hw
    have hne : s.members ≠ [] := by
      intro h
      rw [h] at hnl
      simp at hnl
      omega
    have hf := firstHit_one i.core hw order
    obtain ⟨-, hnew⟩ := he
    simp only [St.act, St.waitOne, hw, if_neg hne] at hnew ⊢
    split at hnew
    · simp at hnew
    · rename_i k hk
      obtain ⟨hlt, hkd⟩ := find_some_range hpp hk
      have hm : s.members[k]? = some s.members[k] := List.getElem?_eq_getElem hlt
      rw [hk] at hf
      split at hnew
      · rename_i hd
        rw [if_pos hd]
        have hcl : ¬ Clash es s (.waitOne w0 order) := by
          rintro ⟨_, _, k', h1, h2, h3⟩
          cases h1
          rw [hf] at h2
          cases h2
          rw [endedAt_eq i.core, hd] at h3
          cases h3
        have hms : s.members[k].out.isSome = true := by
          obtain ⟨m, h1, h2⟩ := (doneAt_iff _ _).1 hd
          rw [hm] at h1
          cases h1
          exact h2
        rcases wonBy_ok (w := w0) i.core hm hms with ⟨a, b, c⟩ | ⟨x, a, b, c⟩
        · simp only [c, take_new] at hnew
          have hr : r = .ok := by
            have := List.mem_singleton.1 hnew
            simpa using congrArg Prod.snd this
          exact .inl ⟨hcl, hr, .inr ⟨s.members[k].id, mem_ids hm, b, .inl ⟨by rw [hq, a], hr⟩⟩⟩
        · simp only [c, take_new] at hnew
          have hr : r = .err x := by
            have := List.mem_singleton.1 hnew
            simpa using congrArg Prod.snd this
          exact .inr (.inl ⟨hcl, ⟨s.members[k].id, mem_ids hm, x, by rw [hq, a], hr⟩, b⟩)
      · rename_i hd
        rw [if_neg hd]
        have hd' : s.doneAt k = false := by simpa using hd
        have hout : s.members[k].out = none := by
          cases ho : s.members[k].out with
          | none => rfl
          | some o =>
            have := (doneAt_iff s k).2 ⟨_, hm, by rw [ho]; rfl⟩
            rw [hd'] at this
            cases this
        have hcl : Clash es s (.waitOne w0 order) :=
          ⟨w0, order, k, rfl, hf, by rw [endedAt_eq i.core, hd']⟩
        rcases wonBy_eq s w' k _ hm with ⟨x, hx, -⟩ | ⟨-, hwon⟩
        · rw [hout] at hx; cases hx
        · refine .inr (.inr ⟨hcl, ⟨s.members[k].id, mem_ids hm, ?_, ?_⟩, ?_⟩)
          · rw [hq, ← i.out _ (List.getElem_mem hlt), hout]
          · rw [hwon]
            exact ids_eraseIdx i.nodupM hm
          · rw [hwon] at hnew
            simp only at hnew
            rw [show ∀ a : Nat × Res, (a :: (w', Res.ok) :: s.log).length - s.log.length = 2 by
              intro a; simp only [List.length_cons]; omega] at hnew
            simp only [List.take_succ_cons, List.take_zero, List.mem_cons, List.not_mem_nil, or_false,
              Prod.mk.injEq] at hnew
            rcases hnew with ⟨-, h⟩ | ⟨-, h⟩
            · rw [h]
              split
              · exact .inr rfl
              · exact .inl rfl
            · exact .inr h

theorem erase_ne {l : List Nat} {a : Nat} (h : a ∈ l) : l ≠ l.erase a := by
  intro h1
  have := congrArg List.length h1
  rw [List.length_erase_of_mem h] at this
  have := List.length_pos_of_mem h
  omega

/-- **C22, exactly**: a `wait_one` ends as it should if and only if it ends with success and
does not clash with another one. -/
theorem C22_exact (cn ce : Nat) (es : List Ev) (e : Ev) (w : Nat) (r : Res)
    (hl : Legal { normal := cn, except := ce } (es ++ [e]))
    (he : OneEnds (St.run cn ce es) e (St.run cn ce (es ++ [e])) w r) :
    OneOk (es ++ [e]) (St.run cn ce es) (St.run cn ce (es ++ [e])) r ↔
      r = .ok ∧ ¬ Clash es (St.run cn ce es) e := by
  have hl1 := (legal_snoc hl).1
  have i := Inv.run hl1
  have hnd : (St.run cn ce es).ids.Nodup := i.nodupM
  rcases C22_ends cn ce es e w r hl he with ⟨a, b, c⟩ | ⟨a, ⟨id, hid, x, hx, hr⟩, c⟩ | ⟨a, ⟨id, hid, ho, hids⟩, hr⟩
  · exact ⟨fun _ => ⟨b, a⟩, fun _ => c⟩
  · constructor
    · rintro (⟨h1, -, -⟩ | ⟨id', hid', h1, -⟩)
      · rw [h1] at hid; cases hid
      · rw [c] at h1
        exact absurd h1 (erase_ne hid')
    · rintro ⟨h, -⟩
      rw [hr] at h
      cases h
  · constructor
    · rintro (⟨h1, -, -⟩ | ⟨id', hid', h1, h2⟩)
      · rw [h1] at hid; cases hid
      · exfalso
        rw [hids] at h1
        have : id = id' := by
          apply Classical.byContradiction
          intro hne
          have h3 : id' ∈ (St.run cn ce es).ids.erase id := (List.mem_erase_of_ne (Ne.symm hne)).2 hid'
          rw [h1] at h3
          exact (hnd.mem_erase_iff.1 h3).1 rfl
        subst this
        rcases h2 with ⟨h2, -⟩ | ⟨x, h2, -⟩ <;> (rw [ho] at h2; cases h2)
    · rintro ⟨-, h⟩
      exact absurd a h

example : Legal { normal := 0, except := 1 } ([.push 0, .push 1, .waitOne 0 [0, 1]] ++ [.waitOne 1 [1, 0]]) ∧
    OneEnds (St.run 0 1 [.push 0, .push 1, .waitOne 0 [0, 1]]) (.waitOne 1 [1, 0])
      (St.run 0 1 ([.push 0, .push 1, .waitOne 0 [0, 1]] ++ [.waitOne 1 [1, 0]])) 0 .ok ∧
    Clash [.push 0, .push 1, .waitOne 0 [0, 1]] (St.run 0 1 [.push 0, .push 1, .waitOne 0 [0, 1]])
      (.waitOne 1 [1, 0]) :=
  ⟨by decide, ⟨.inl ⟨2, by decide⟩, by decide⟩, 1, [1, 0], 1, rfl, by decide, by decide⟩

/-- Two at once that do not clash: the second one comes first upon a member that has ended. -/
example : Legal { normal := 0, except := 1 }
      ([.push 0, .waitOne 0 [0], .push 1, .complete 1 .ok] ++ [.waitOne 1 [1, 0]]) ∧
    OneEnds (St.run 0 1 [.push 0, .waitOne 0 [0], .push 1, .complete 1 .ok]) (.waitOne 1 [1, 0])
      (St.run 0 1 ([.push 0, .waitOne 0 [0], .push 1, .complete 1 .ok] ++ [.waitOne 1 [1, 0]])) 1 .ok ∧
    ¬ Clash [.push 0, .waitOne 0 [0], .push 1, .complete 1 .ok]
      (St.run 0 1 [.push 0, .waitOne 0 [0], .push 1, .complete 1 .ok]) (.waitOne 1 [1, 0]) := by
  refine ⟨by decide, ⟨.inr ⟨_, rfl⟩, by decide⟩, ?_⟩
  rintro ⟨w, o, k, h, h1, h2⟩
  cases h
  rw [show firstHit [.push 0, .waitOne 0 [0], .push 1, .complete 1 .ok]
    (St.run 0 1 [.push 0, .waitOne 0 [0], .push 1, .complete 1 .ok]) [1, 0] = some 1 by decide] at h1
  cases h1
  exact absurd h2 (by decide)

theorem taken_run {cn ce : Nat} {es : List Ev} (hl : Legal { normal := cn, except := ce } es) :
    TakenOk cn ce es (St.run cn ce es) := by
  suffices ∀ l : List Ev, Legal { normal := cn, except := ce } l.reverse →
      TakenOk cn ce l.reverse (St.run cn ce l.reverse) by
    have := this es.reverse
    rw [List.reverse_reverse] at this
    exact this hl
  intro l
  induction l with
  | nil => intro _ m hm; cases hm
  | cons e l ih =>
    intro h
    rw [List.reverse_cons] at h ⊢
    exact TakenOk.step h (ih (legal_snoc h).1)

/-- **C23 for `reap`, exactly**: it removes what has ended and says how many if and only if of
the members that have ended none is being waited for by `wait`, and no failure of one was reported by a
`wait_one` before. -/
theorem C23_reap_exact (cn ce : Nat) (es : List Ev) (hl : Legal { normal := cn, except := ce } es) :
    ReapOk es (St.run cn ce es) (St.run cn ce (es ++ [.reap])) ↔
      ∀ id ∈ (St.run cn ce es).ids, (outcome id es).isSome →
        (∀ w ids, (St.run cn ce es).wait = some (.all w ids) → id ∉ ids) ∧ ¬ Reported cn ce es id := by
  have i := Inv.run hl
  have t := taken_run hl
  rw [run_snoc]
  generalize St.run cn ce es = s at *
  rw [step_eq i.ub rfl]
  constructor
  · rintro ⟨h1, -⟩ id hid ho
    have hnt : ∀ m ∈ s.members, m.id = id → m.taken = false := by
      intro m hm hmid
      have hout : m.out.isSome = true := by rw [i.out _ hm, hmid]; exact ho
      apply Classical.byContradiction
      intro htk
      have htk : m.taken = true := by simpa using htk
      have hin : m.id ∈ (s.act .reap).ids := by
        refine List.mem_map.2 ⟨m, List.mem_filter.2 ⟨hm, ?_⟩, rfl⟩
        simp [htk]
      rw [h1, hmid] at hin
      have := (List.mem_filter.1 hin).2
      rw [Option.isNone_iff_eq_none] at this
      rw [this] at ho
      cases ho
    obtain ⟨m, hm, rfl⟩ := List.mem_map.1 hid
    have hf := hnt m hm rfl
    have hout : m.out.isSome = true := by rw [i.out _ hm]; exact ho
    constructor
    · intro w ids hw hmem
      have := (t m hm).2 ⟨hout, .inl ⟨w, ids, hw, hmem⟩⟩
      rw [hf] at this; cases this
    · intro hr
      have := (t m hm).2 ⟨hout, .inr hr⟩
      rw [hf] at this; cases this
  · intro h
    have ht : ∀ m ∈ s.members, m.taken = false := by
      intro m hm
      cases htk : m.taken with
      | false => rfl
      | true =>
        obtain ⟨hout, h2⟩ := (t m hm).1 htk
        obtain ⟨h3, h4⟩ := h m.id (List.mem_map.2 ⟨m, hm, rfl⟩) (by rw [← i.out _ hm]; exact hout)
        rcases h2 with ⟨w, ids, hw, hmem⟩ | h2
        · exact absurd hmem (h3 w ids hw)
        · exact absurd h2 h4
    constructor
    · simp only [St.ids, St.act, St.reap, List.filter_map]
      congr 1
      refine List.filter_congr fun m hm => ?_
      simp only [Function.comp_apply, ht m hm, ← i.out _ hm]
      cases m.out <;> rfl
    · simp only [St.ids, St.act, St.reap, List.filter_map, List.length_map]
      congr 2
      refine List.filter_congr fun m hm => ?_
      simp only [Function.comp_apply, ht m hm, ← i.out _ hm]
      cases m.out <;> rfl

/-- A failure that was reported, and one that was not. -/
example : Legal { normal := 0, except := 1 } [.push 0, .push 1, .complete 0 (.err 7), .waitOne 0 [0, 1], .complete 1 (.err 7)] ∧
    Reported 0 1 [.push 0, .push 1, .complete 0 (.err 7), .waitOne 0 [0, 1], .complete 1 (.err 7)] 0 ∧
    (St.run 0 1 [.push 0, .push 1, .complete 0 (.err 7), .waitOne 0 [0, 1], .complete 1 (.err 7), .reap]).ids = [0] :=
  ⟨by decide, ⟨[.push 0, .push 1, .complete 0 (.err 7)], .waitOne 0 [0, 1], [.complete 1 (.err 7)], rfl,
    .inr ⟨0, [0, 1], 0, 7, rfl, by decide, by decide, by decide⟩⟩, by decide⟩

/-- **C23 for `wait` and `await_exit`, exactly**: the group is empty when it ends; all the members have
ended if and only if those have that were added in the meantime. -/
theorem C23_wait_exact (cn ce : Nat) (es : List Ev) (e : Ev) (w : Nat)
    (hl : Legal { normal := cn, except := ce } (es ++ [e]))
    (he : AllEnds (St.run cn ce es) e (St.run cn ce (es ++ [e])) w) :
    AllOk (es ++ [e]) (St.run cn ce es) (St.run cn ce (es ++ [e])) ↔
      ∀ ids, (St.run cn ce es).wait = some (.all w ids) →
        ∀ id ∈ (St.run cn ce es).ids, id ∉ ids → (outcome id (es ++ [e])).isSome := by
  obtain ⟨h1, h2, h3⟩ := C23_wait_partial cn ce es e w hl he
  constructor
  · rintro ⟨-, h⟩ ids - id hid -
    exact h id hid
  · intro h
    by_cases hw : ∃ ids, (St.run cn ce es).wait = some (.all w ids)
    · obtain ⟨ids, hw⟩ := hw
      refine ⟨h1, fun id hid => ?_⟩
      by_cases hm : id ∈ ids
      · exact h2 ids hw id hm
      · exact h ids hw id hid hm
    · exact h3 fun ids hids => absurd ⟨ids, hids⟩ hw

example : Legal { normal := 0, except := 1 } ([.push 0, .waitAll 0, .push 1, .complete 1 .ok] ++ [.complete 0 .ok]) ∧
    AllEnds (St.run 0 1 [.push 0, .waitAll 0, .push 1, .complete 1 .ok]) (.complete 0 .ok)
      (St.run 0 1 ([.push 0, .waitAll 0, .push 1, .complete 1 .ok] ++ [.complete 0 .ok])) 0 ∧
    (St.run 0 1 [.push 0, .waitAll 0, .push 1, .complete 1 .ok]).wait = some (.all 0 [0]) :=
  ⟨by decide, ⟨.inl ⟨[0], by decide⟩, .ok, by decide⟩, by decide⟩

end Cobalt.Group
