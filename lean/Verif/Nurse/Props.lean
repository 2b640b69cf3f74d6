import Verif.Nurse.Run

/-!
# C94: no coroutine of a `wait_group` outlives the `with` it is used in

Partly: a coroutine that is added while all of the group is being awaited is destroyed with
the promise, not awaited; one that a second `wait_one` throws out of the group neither.
Then it goes on after the end of `with`, and what it does with the group is undefined.
-/
namespace Cobalt.Nurse

open Group (Mem)

/-- A coroutine of the group adds another one while the exit of the group is awaited. The
other is still running when `with` ends. -/
theorem C94_violated : ¬ C94 := by
  intro h
  have := (h 0 1 [.push none 1, .funcEnds none, .push (some 1) 2, .complete 1 .ok] (by decide)).2 (by decide) 2
    (by decide)
  revert this
  decide

/-- Then it uses the group. -/
theorem C94_used_violated :
    Legal { g := {} } [.push none 1, .funcEnds none, .push (some 1) 2, .complete 1 .ok, .reap (some 2)] ∧
    (St.run 0 1 [.push none 1, .funcEnds none, .push (some 1) 2, .complete 1 .ok, .reap (some 2)]).ub = true := by
  decide

/-- The same during a `wait` in `func`. -/
theorem C94_wait_violated :
    Legal { g := {} } [.push none 1, .waitAll 7, .push (some 1) 2, .complete 1 .ok, .funcEnds none] ∧
    (St.run 0 1 [.push none 1, .waitAll 7, .push (some 1) 2, .complete 1 .ok, .funcEnds none]).phase = .over ∧
    (St.run 0 1 [.push none 1, .waitAll 7, .push (some 1) 2, .complete 1 .ok, .funcEnds none]).running = [2] := by
  decide

/-- Two `wait_one` at a time: the first one removes a coroutine that is running. -/
theorem C94_overlap_violated :
    Legal { g := {} } [.push none 1, .waitOne 7 [0], .waitOne 8 [0], .funcEnds none] ∧
    late { g := {} } [.push none 1, .waitOne 7 [0], .waitOne 8 [0], .funcEnds none] = [] ∧
    (St.run 0 1 [.push none 1, .waitOne 7 [0], .waitOne 8 [0], .funcEnds none]).phase = .over ∧
    (St.run 0 1 [.push none 1, .waitOne 7 [0], .waitOne 8 [0], .funcEnds none]).running = [1] := by
  decide

/-- At the end of `with` only those run which were added late. -/
theorem Inv.late {h : List Group.Ev} {es : List Ev} {l : List Nat} {s : St} (i : Inv h es l s) (k : Kept l s)
    (ho : s.phase = .over) {id : Nat} (hp : id ∈ pushes es) : ended id es = true ∨ id ∈ l := by
  have hm := i.grp.perm.mem_iff.2 (i.pushed ▸ hp)
  rw [i.over ho] at hm
  simp only [List.map_nil, List.append_nil, List.mem_map] at hm
  obtain ⟨m, hm, rfl⟩ := hm
  cases hout : m.out with
  | none => exact Or.inr (k m hm hout)
  | some o => exact Or.inl (i.done m.id (by rw [← i.grp.outG m hm, hout]; rfl))

/-- If `wait_one` is not used twice at a time: a coroutine that is running at the end of
`with` was added while all of the group was being awaited. -/
theorem C94_late_partial (cn ce : Nat) (es : List Ev) (hl : Legal { g := { normal := cn, except := ce } } es)
    (hn : NoOverlap { g := { normal := cn, except := ce } } es) (hu : (St.run cn ce es).ub = false)
    (ho : (St.run cn ce es).phase = .over) :
    ∀ id ∈ pushes es, ended id es = true ∨ id ∈ late { g := { normal := cn, except := ce } } es := by
  intro id hid
  have k0 : Kept [] { g := { normal := cn, except := ce } } := by intro m hm; cases hm
  rcases (Inv.init cn ce).run rfl hl with ⟨_, _, _, _, _, hb, _⟩ | ⟨_, ⟨h, i⟩, k⟩
  · exact absurd (hb.symm.trans hu) (by decide)
  · exact i.late (k k0 hn) ho hid

example :
    (St.run 0 1 [.push none 1, .funcEnds none, .push (some 1) 2, .push (some 1) 3, .complete 3 .ok,
      .complete 1 (.err 5)]).phase = .over ∧
    late { g := {} } [.push none 1, .funcEnds none, .push (some 1) 2, .push (some 1) 3, .complete 3 .ok,
      .complete 1 (.err 5)] = [2, 3] ∧
    (St.run 0 1 [.push none 1, .funcEnds none, .push (some 1) 2, .push (some 1) 3, .complete 3 .ok,
      .complete 1 (.err 5)]).running = [2] := by decide

theorem late_pushes (es : List Ev) : ∀ (s : St), ∀ id ∈ Nurse.late s es, id ∈ pushes es := by
  induction es with
  | nil => intro s id h; cases h
  | cons e es ih =>
    intro s id h
    cases e with
    | push a j =>
      simp only [Nurse.late] at h
      simp only [pushes, List.mem_cons]
      split at h
      · rcases List.mem_cons.1 h with h | h
        · exact .inl h
        · exact .inr (ih _ id h)
      · exact .inr (ih _ id h)
    | _ => exact ih _ id h

/-- Exactly, if `wait_one` is not used twice at a time: at the end of `with` everybody has ended if and only if those have
who were added while all of the group was being awaited. -/
theorem C94_exact (cn ce : Nat) (es : List Ev) (hl : Legal { g := { normal := cn, except := ce } } es)
    (hn : NoOverlap { g := { normal := cn, except := ce } } es) (hu : (St.run cn ce es).ub = false)
    (ho : (St.run cn ce es).phase = .over) :
    (∀ id ∈ pushes es, ended id es = true) ↔ ∀ id ∈ late { g := { normal := cn, except := ce } } es, ended id es = true := by
  constructor
  · exact fun h id hid => h id (late_pushes es _ id hid)
  · intro h id hid
    rcases C94_late_partial cn ce es hl hn hu ho id hid with h' | h'
    · exact h'
    · exact h id h'

/-- One who was added late and ends in time. -/
example :
    let es : List Ev := [.push none 1, .funcEnds none, .push (some 1) 2, .complete 2 .ok, .complete 1 .ok]
    Legal { g := {} } es ∧ late { g := {} } es = [2] ∧ (St.run 0 1 es).phase = .over ∧ (St.run 0 1 es).ub = false := by
  decide

theorem late_sub_pre (s : St) (a b : List Ev) (h : late s (a ++ b) = []) : late s a = [] := by
  rw [late_append] at h
  exact (List.append_eq_nil_iff.1 h).1

/-- C94 if `wait_one` is not used twice at a time and no coroutine is added while all of
the group is being awaited. -/
theorem C94_partial (cn ce : Nat) (es : List Ev) (hl : Legal { g := { normal := cn, except := ce } } es)
    (hn : NoOverlap { g := { normal := cn, except := ce } } es)
    (hlate : late { g := { normal := cn, except := ce } } es = []) :
    (St.run cn ce es).ub = false ∧
    ((St.run cn ce es).phase = .over → ∀ id ∈ pushes es, ended id es = true) := by
  have k0 : Kept [] { g := { normal := cn, except := ce } } := by intro m hm; cases hm
  rcases (Inv.init cn ce).run rfl hl with ⟨a, e, b, rfl, hbad, _, ⟨h, i⟩, k⟩ | ⟨hu, ⟨h, i⟩, k⟩
  · exfalso
    have hla := late_sub_pre _ _ _ hlate
    have k := k k0 hn
    simp only [List.nil_append, hla] at i k
    obtain ⟨id, hid⟩ := List.exists_mem_of_ne_nil _ hbad.2
    have hr := (i.runs id).1 hid
    rcases i.late k hbad.1 hr.1 with c | c
    · rw [hr.2] at c; cases c
    · cases c
  · refine ⟨hu, fun ho id hid => ?_⟩
    have k := k k0 hn
    simp only [List.nil_append, hlate] at i k
    rcases i.late k ho hid with c | c
    · exact c
    · cases c

example :
    Legal { g := {} } [.push none 1, .push (some 1) 2, .waitOne 7 [1, 0], .complete 2 .ok, .push none 3,
      .funcEnds (some 9), .complete 3 (.err 4), .complete 1 .ok] ∧
    late { g := {} } [.push none 1, .push (some 1) 2, .waitOne 7 [1, 0], .complete 2 .ok, .push none 3,
      .funcEnds (some 9), .complete 3 (.err 4), .complete 1 .ok] = [] ∧
    (St.run 0 1 [.push none 1, .push (some 1) 2, .waitOne 7 [1, 0], .complete 2 .ok, .push none 3,
      .funcEnds (some 9), .complete 3 (.err 4), .complete 1 .ok]).phase = .over := by decide

example : NoOverlap { g := {} } [.push none 1, .waitOne 7 [0], .complete 1 .ok, .push none 2, .waitOne 8 [0]] :=
  ⟨fun _ => rfl, fun _ => rfl, fun ⟨_, _, h⟩ => by (cases h), fun _ => rfl, fun _ => rfl, trivial⟩

/-- `with` goes on after the end of `func` only while a coroutine is running that was in the
group when `func` ended. -/
theorem C94_prompt (cn ce : Nat) (es : List Ev) (hl : Legal { g := { normal := cn, except := ce } } es)
    (hu : (St.run cn ce es).ub = false) (hx : (St.run cn ce es).phase = .inExit) :
    ∃ id ∈ (St.run cn ce es).g.ids, id ∈ pushes es ∧ ended id es = false := by
  rcases (Inv.init cn ce).run rfl hl with ⟨_, _, _, _, _, hb, _⟩ | ⟨_, ⟨h, i⟩, _⟩
  · exact absurd (hb.symm.trans hu) (by decide)
  · obtain ⟨w, ids, hw⟩ := (awaited_iff _).1 (i.ex hx)
    obtain ⟨m, hm, _, ho⟩ := (i.grp.all w ids hw).2.1
    have hid : m.id ∈ (St.run cn ce es).g.ids := List.mem_map.2 ⟨m, hm, rfl⟩
    refine ⟨m.id, hid, i.pushed ▸ i.grp.perm.mem_iff.1 (List.mem_append_right _ hid), ?_⟩
    cases he : ended m.id es with
    | false => rfl
    | true =>
      rcases i.known m.id (by simpa using he) with a | a
      · rw [← i.grp.out m hm, ho] at a; cases a
      · have := (List.nodup_append.1 (i.grp.perm.nodup_iff.2 i.grp.nodup)).2.2 m.id a m.id hid
        exact absurd rfl this

example :
    (St.run 0 1 [.push none 1, .push none 2, .funcEnds none, .complete 1 .ok]).phase = .inExit := by decide

/-- What `with` ends with is how `func` has ended, whatever happens to the coroutines of
the group. -/
theorem C94_result (cn ce : Nat) (es : List Ev) (hl : Legal { g := { normal := cn, except := ce } } es)
    (hu : (St.run cn ce es).ub = false) (ho : (St.run cn ce es).phase = .over) :
    funcEnd es = some (St.run cn ce es).e := by
  rcases (Inv.init cn ce).run rfl hl with ⟨_, _, _, _, _, hb, _⟩ | ⟨_, ⟨h, i⟩, _⟩
  · exact absurd (hb.symm.trans hu) (by decide)
  · simp only [List.nil_append] at i
    cases hf : funcEnd es with
    | none =>
      have h1 := i.fn.2 hf
      have h2 : (St.run cn ce es).phase = .inFunc := h1
      rw [h2] at ho
      cases ho
    | some x => exact congrArg some (i.exc x hf).symm

example :
    (St.run 0 1 [.push none 1, .funcEnds (some 9), .complete 1 (.err 4)]).phase = .over ∧
    (St.run 0 1 [.push none 1, .funcEnds (some 9), .complete 1 (.err 4)]).e = some 9 := by decide

/-- When `func` ends, every coroutine of the group that is running is sent the cancellation
for this end, once, or nothing for the type `none`, and is awaited. -/
theorem C94_told (cn ce : Nat) (es : List Ev) (x : Option Nat)
    (hl : Legal { g := { normal := cn, except := ce } } (es ++ [.funcEnds x]))
    (hu : (St.run cn ce es).ub = false)
    (m : Mem) (hm : m ∈ (St.run cn ce es).g.members) (ho : m.out = none) :
    let ct := if x.isSome then ce else cn
    (St.run cn ce (es ++ [.funcEnds x])).phase = .inExit ∧
    { m with cancels := if ct = 0 then m.cancels else ct :: m.cancels } ∈
      (St.run cn ce (es ++ [.funcEnds x])).g.members := by
  obtain ⟨hl1, hc⟩ := legal_snoc hl
  change (St.run cn ce es).can _ = true at hc
  have hi : ∃ h, Group.Inv h (St.run cn ce es).g := by
    rcases (Inv.init cn ce).run rfl hl1 with ⟨_, _, _, _, _, hb, _⟩ | ⟨_, ⟨h, i⟩, _⟩
    · exact absurd (hb.symm.trans hu) (by decide)
    · exact ⟨h, i.grp⟩
  obtain ⟨h, i⟩ := hi
  obtain ⟨t1, t2⟩ := run_types cn ce es
  have hr : St.run cn ce (es ++ [.funcEnds x]) = (St.run cn ce es).step (.funcEnds x) := steps_append _ es [_]
  rw [hr]
  clear hr hl hl1
  generalize St.run cn ce es = s at *
  rw [step_eq hu hc]
  simp only [St.can, Bool.and_eq_true, beq_iff_eq] at hc
  have hg : s.g.can (.exit 0 x.isSome) = true := by simp [Group.St.can, hc.2]
  obtain ⟨s', h1, h2, _, h4, h5⟩ := Group.exit_eq s.g 0 x.isSome
  intro ct
  have hct : (if x.isSome = true then s.g.except else s.g.normal) = ct := by rw [t1, t2]
  rw [hct] at h5
  have hs : s.g.step (.exit 0 x.isSome) = Group.St.waitAll s' 0 := by rw [Group.step_eq i.ub hg]; exact h1
  have hmem : { m with cancels := if ct = 0 then m.cancels else ct :: m.cancels } ∈ s'.members := by
    by_cases h0 : ct = 0
    · simp only [h0, ne_eq, not_true, if_false] at h5
      simpa [h0, h5] using hm
    · simp only [ne_eq, h0, not_false_iff, if_true] at h5
      simp only [h0, if_false]
      rw [h5]
      exact List.mem_map.2 ⟨m, hm, by simp [ho]⟩
  rcases Group.waitAll_cases 0 (h4 h i) with ⟨_, _, c⟩ | ⟨a, _, d⟩
  · have := c m.id (by rw [h2]; exact List.mem_map.2 ⟨m, hm, rfl⟩)
    rw [← i.out m hm, ho] at this
    cases this
  · simp only [St.act, St.settle]
    have hw : ¬ (True ∧ (s.g.step (.exit 0 x.isSome)).wait = none) := by
      rw [hs, a]; simp
    rw [if_neg hw]
    refine ⟨rfl, ?_⟩
    dsimp only
    rw [hs, d]
    refine List.mem_map.2 ⟨_, hmem, ?_⟩
    simp [ho]

example :
    Legal { g := {} } ([.push none 1, .push none 2, .complete 2 .ok] ++ [.funcEnds (some 9)]) ∧
    ((St.run 0 1 ([.push none 1, .push none 2, .complete 2 .ok] ++ [.funcEnds (some 9)])).g.members.map
      fun m => (m.id, m.cancels)) = [(1, [1]), (2, [])] := by decide

end Cobalt.Nurse
