import Verif.Group.Lemmas

/-!
# When a result was taken

The moments that decide about C22 and C23, read off the events.
-/
namespace Cobalt.Group

/-- The member at this place has ended. -/
def endedAt (h : List Ev) (s : St) (j : Nat) : Bool := ((s.ids[j]?).bind fun id => outcome id h).isSome

/-- Another `wait_one` is waiting for the member at this place. -/
def St.waitedAt (s : St) (j : Nat) : Bool :=
  match s.wait with
  | some (.one _ n) => decide (j < n)
  | _ => false

/-- The first one, in this order, that has ended or that another `wait_one` is waiting for. -/
def firstHit (h : List Ev) (s : St) (order : List Nat) : Option Nat :=
  order.find? fun j => endedAt h s j || s.waitedAt j

/-- A `wait_one` is started while another one is pending, and comes first upon a member the
other one is waiting for. -/
def Clash (h : List Ev) (s : St) (e : Ev) : Prop :=
  ∃ w order i, e = .waitOne w order ∧ firstHit h s order = some i ∧ endedAt h s i = false

/-- The failure of member `id` is reported by a `wait_one`. -/
def Reports (h : List Ev) (s : St) (e : Ev) (id : Nat) : Prop :=
  (∃ x k, e = .complete id (.err x) ∧ s.ids[k]? = some id ∧ s.waitedAt k = true) ∨
  ∃ w order k x, e = .waitOne w order ∧ firstHit h s order = some k ∧ s.ids[k]? = some id ∧
    outcome id h = some (.err x)

/-- It was reported before. -/
def Reported (cn ce : Nat) (es : List Ev) (id : Nat) : Prop :=
  ∃ a e b, es = a ++ e :: b ∧ Reports a (St.run cn ce a) e id

theorem reported_snoc {cn ce : Nat} {es : List Ev} {e : Ev} {id : Nat} :
    Reported cn ce (es ++ [e]) id ↔ Reported cn ce es id ∨ Reports es (St.run cn ce es) e id := by
  constructor
  · rintro ⟨a, f, b, h, hr⟩
    rcases List.eq_nil_or_concat b with rfl | ⟨b', y, rfl⟩
    · obtain ⟨rfl, h2⟩ := List.append_inj' h rfl
      obtain rfl : e = f := by simpa using h2
      exact .inr hr
    · have : es ++ [e] = (a ++ f :: b') ++ [y] := by simpa using h
      exact .inl ⟨a, f, b', (List.append_inj' this rfl).1, hr⟩
  · rintro (⟨a, f, b, rfl, hr⟩ | hr)
    · exact ⟨a, f, b ++ [e], by simp, hr⟩
    · exact ⟨es, e, [], rfl, hr⟩

theorem endedAt_eq {h : List Ev} {s : St} (i : Core h s) (j : Nat) : endedAt h s j = s.doneAt j := by
  unfold endedAt St.doneAt St.ids
  rw [List.getElem?_map]
  cases hm : s.members[j]? with
  | none => rfl
  | some m => simp [i.out _ (List.mem_of_getElem? hm)]

theorem find?_congr' {l : List Nat} {p q : Nat → Bool} (h : ∀ j, p j = q j) : l.find? p = l.find? q := by
  congr 1
  funext j
  exact h j

theorem firstHit_one {h : List Ev} {s : St} {w n : Nat} (i : Core h s) (hw : s.wait = some (.one w n))
    (order : List Nat) : firstHit h s order = order.find? fun j => s.doneAt j || decide (j < n) :=
  find?_congr' fun j => by rw [endedAt_eq i]; simp [St.waitedAt, hw]

theorem firstHit_none {h : List Ev} {s : St} (i : Core h s) (hw : s.wait = none)
    (order : List Nat) : firstHit h s order = order.find? s.doneAt :=
  find?_congr' fun j => by rw [endedAt_eq i]; simp [St.waitedAt, hw]

theorem ids_at {s : St} {k : Nat} {m : Mem} (hm : s.members[k]? = some m) : s.ids[k]? = some m.id := by
  simp [St.ids, hm]

theorem at_ids {s : St} {k id : Nat} (h : s.ids[k]? = some id) : ∃ m, s.members[k]? = some m ∧ m.id = id := by
  simpa [St.ids] using h

theorem same_at {h : List Ev} {s : St} (i : Core h s) {j k id : Nat} (hj : s.ids[j]? = some id)
    (hk : s.ids[k]? = some id) : j = k := by
  have hn : s.ids.Nodup := i.nodupM
  obtain ⟨h1, e1⟩ := List.getElem?_eq_some_iff.1 hj
  obtain ⟨h2, e2⟩ := List.getElem?_eq_some_iff.1 hk
  exact (List.Nodup.getElem_inj_iff hn).1 (e1.trans e2.symm)

/-- Who was reported was in the group. -/
theorem reported_push {cn ce : Nat} {es : List Ev} (hl : Legal { normal := cn, except := ce } es) {id : Nat}
    (h : Reported cn ce es id) : id ∈ pushes es := by
  obtain ⟨a, e, b, rfl, hr⟩ := h
  have hla : Legal { normal := cn, except := ce } a := by
    clear hr
    generalize ({ normal := cn, except := ce } : St) = s at hl
    induction a generalizing s with
    | nil => trivial
    | cons x a ih => exact ⟨hl.1, ih _ hl.2⟩
  have i := Inv.run hla
  have : id ∈ (St.run cn ce a).ids := by
    rcases hr with ⟨x, k, -, hk, -⟩ | ⟨w, o, k, x, -, -, hk, -⟩ <;> exact List.mem_of_getElem? hk
  rw [pushes_append]
  exact List.mem_append_left _ (i.perm.mem_iff.1 (List.mem_append_right _ this))

/-- What is known about the results taken. -/
def TakenOk (cn ce : Nat) (h : List Ev) (s : St) : Prop :=
  ∀ m ∈ s.members, m.taken = true ↔ m.out.isSome = true ∧
    ((∃ w ids, s.wait = some (.all w ids) ∧ m.id ∈ ids) ∨ Reported cn ce h m.id)

theorem mem_at {l : List Mem} {m : Mem} (h : m ∈ l) : ∃ k : Nat, l[k]? = some m := List.mem_iff_getElem?.1 h

theorem mem_eraseIdx {l : List Mem} {k : Nat} {m : Mem} (h : m ∈ l.eraseIdx k) : ∃ j, j ≠ k ∧ l[j]? = some m := by
  obtain ⟨i, hi⟩ := mem_at h
  rw [List.getElem?_eraseIdx] at hi
  split at hi
  · exact ⟨i, by omega, hi⟩
  · exact ⟨i + 1, by omega, hi⟩

/-- A `wait_one` was won by the member at `k`. -/
theorem TakenOk.wonBy {cn ce : Nat} {h h' : List Ev} {s : St} {w k : Nat} {m : Mem}
    (hm : s.members[k]? = some m)
    (ht : ∀ x ∈ s.members, x.taken = true ↔ x.out.isSome = true ∧ Reported cn ce h x.id)
    (hr : ∀ x j, s.members[j]? = some x → (Reported cn ce h' x.id ↔ Reported cn ce h x.id ∨
      j = k ∧ ∃ y, x.out = some (.err y)))
    (wt : Option Wait) (hwt : ∀ a ids, wt ≠ some (.all a ids)) (lg : List (Nat × Res)) :
    TakenOk cn ce h' { St.wonBy s w k with wait := wt, log := lg } := by
  rcases wonBy_eq s w k m hm with ⟨x, hx, he⟩ | ⟨hx, he⟩
  · rw [he]
    intro y hy
    obtain ⟨j, hj⟩ := mem_at hy
    change (s.members.set k { m with taken := true })[j]? = some y at hj
    by_cases hjk : k = j
    · subst hjk
      rw [List.getElem?_set_self (List.getElem?_eq_some_iff.1 hm).1] at hj
      obtain rfl := Option.some.inj hj
      simp only [true_iff]
      refine ⟨by simp [hx], .inr ((hr m k hm).2 (.inr ⟨rfl, x, hx⟩))⟩
    · rw [List.getElem?_set_ne hjk] at hj
      rw [ht y (List.mem_of_getElem? hj), hr y j hj]
      constructor
      · rintro ⟨a, b⟩
        exact ⟨a, .inr (.inl b)⟩
      · rintro ⟨a, ⟨w', ids, b, -⟩ | b | ⟨b, -⟩⟩
        · exact absurd b (hwt _ _)
        · exact ⟨a, b⟩
        · exact absurd b.symm hjk
  · rw [he]
    intro y hy
    obtain ⟨j, hjk, hj⟩ := mem_eraseIdx hy
    rw [ht y (List.mem_of_getElem? hj), hr y j hj]
    constructor
    · rintro ⟨a, b⟩
      exact ⟨a, .inr (.inl b)⟩
    · rintro ⟨a, ⟨w', ids, b, -⟩ | b | ⟨b, -⟩⟩
      · exact absurd b (hwt _ _)
      · exact ⟨a, b⟩
      · exact absurd b hjk

/-- The events that report nothing. -/
theorem reports_no {h : List Ev} {s : St} {e : Ev} {id : Nat} (h1 : ∀ i o, e ≠ .complete i o)
    (h2 : ∀ w o, e ≠ .waitOne w o) : ¬ Reports h s e id := by
  rintro (⟨x, k, rfl, -⟩ | ⟨w, o, k, x, rfl, -⟩)
  · exact h1 _ _ rfl
  · exact h2 _ _ rfl

theorem TakenOk.waitAll {cn ce : Nat} {h h' : List Ev} {s : St} (w : Nat) (t : TakenOk cn ce h s)
    (hw : s.wait = none) (hr : ∀ id, Reported cn ce h' id ↔ Reported cn ce h id) :
    TakenOk cn ce h' (St.waitAll s w) := by
  unfold St.waitAll
  split
  · rename_i hm
    intro m hmm
    simp only [hm] at hmm
    cases hmm
  split
  · intro m hmm
    cases hmm
  · intro m hmm
    obtain ⟨m0, h0, rfl⟩ := List.mem_map.1 hmm
    have := t m0 h0
    simp only [Bool.or_eq_true, this, hr]
    constructor
    · rintro (⟨a, ⟨w', ids, b, -⟩ | b⟩ | a)
      · rw [hw] at b; cases b
      · exact ⟨a, .inr b⟩
      · exact ⟨a, .inl ⟨w, _, rfl, List.mem_map.2 ⟨m0, h0, rfl⟩⟩⟩
    · rintro ⟨a, -⟩
      exact .inr a

theorem TakenOk.step {cn ce : Nat} {es : List Ev} {e : Ev} (hl : Legal { normal := cn, except := ce } (es ++ [e]))
    (t : TakenOk cn ce es (St.run cn ce es)) : TakenOk cn ce (es ++ [e]) (St.run cn ce (es ++ [e])) := by
  obtain ⟨hl1, hc⟩ := legal_snoc hl
  have i := Inv.run hl1
  have hps := fun id => reported_push (id := id) hl1
  have hsn : ∀ id, Reported cn ce (es ++ [e]) id ↔ Reported cn ce es id ∨ Reports es (St.run cn ce es) e id :=
    fun id => reported_snoc
  rw [run_snoc]
  change (St.run cn ce es).can e = true at hc
  rw [step_eq i.ub hc]
  generalize St.run cn ce es = s at *
  have hquiet : (∀ i o, e ≠ .complete i o) → (∀ w o, e ≠ .waitOne w o) →
      ∀ id, Reported cn ce (es ++ [e]) id ↔ Reported cn ce es id := by
    intro h1 h2 id
    rw [hsn]
    exact ⟨fun h => h.resolve_right (reports_no h1 h2), .inl⟩
  cases e with
  | push id =>
    have hq := hquiet (by simp) (by simp)
    intro m hm
    rcases List.mem_append.1 hm with hm | hm
    · rw [hq]; exact t m hm
    · obtain rfl : m = { id := id } := by simpa using hm
      simp
  | cancel ct =>
    have hq := hquiet (by simp) (by simp)
    intro m hm
    obtain ⟨m0, h0, rfl⟩ := List.mem_map.1 hm
    have := t m0 h0
    rw [hq]
    split <;> exact this
  | reap =>
    have hq := hquiet (by simp) (by simp)
    intro m hm
    rw [hq]
    exact t m (List.mem_filter.1 hm).1
  | waitAll w =>
    exact t.waitAll w (by simpa [St.can] using hc) (hquiet (by simp) (by simp))
  | exit w b =>
    have hw : s.wait = none := by simpa [St.can] using hc
    have hq := hquiet (by simp) (by simp)
    simp only [St.act, St.exit]
    generalize (if b = true then s.except else s.normal) = ct
    refine TakenOk.waitAll (h := es) w ?_ ?_ hq
    · split
      · intro m hm
        obtain ⟨m0, h0, rfl⟩ := List.mem_map.1 hm
        have := t m0 h0
        split <;> exact this
      · exact t
    · split
      · exact hw
      · exact hw
  | waitOne w order =>
    have hpp : order.Perm (List.range s.members.length) := by
      simp only [St.can, Bool.and_eq_true] at hc
      exact List.isPerm_iff.1 hc.1
    have hna : ∀ a ids, s.wait ≠ some (.all a ids) := by
      intro a ids h
      simp [St.can, h] at hc
    have ht : ∀ x ∈ s.members, x.taken = true ↔ x.out.isSome = true ∧ Reported cn ce es x.id := by
      intro x hx
      rw [t x hx]
      constructor
      · rintro ⟨a, ⟨w', ids, b, -⟩ | b⟩
        · exact absurd b (hna _ _)
        · exact ⟨a, b⟩
      · rintro ⟨a, b⟩; exact ⟨a, .inr b⟩
    have hrep : ∀ k, firstHit es s order = some k → ∀ x j, s.members[j]? = some x →
        (Reported cn ce (es ++ [.waitOne w order]) x.id ↔ Reported cn ce es x.id ∨
          j = k ∧ ∃ y, x.out = some (.err y)) := by
      intro k hk x j hx
      rw [hsn]
      have ho := i.out x (List.mem_of_getElem? hx)
      refine or_congr Iff.rfl ?_
      constructor
      · rintro (⟨_, _, h, -⟩ | ⟨w', o', k', y, h, h1, h2, h3⟩)
        · cases h
        · cases h
          rw [hk] at h1
          cases h1
          exact ⟨same_at i.core (ids_at hx) h2, y, by rw [ho, h3]⟩
      · rintro ⟨rfl, y, hy⟩
        exact .inr ⟨w, order, j, y, rfl, hk, ids_at hx, by rw [← ho, hy]⟩
    have hkeep : firstHit es s order = none → ∀ id,
        Reported cn ce (es ++ [.waitOne w order]) id ↔ Reported cn ce es id := by
      intro hk id
      rw [hsn]
      constructor
      · rintro (h | ⟨_, _, h, -⟩ | ⟨w', o', k', y, h, h1, -⟩)
        · exact h
        · cases h
        · cases h
          rw [hk] at h1
          cases h1
      · exact .inl
    simp only [St.act]
    unfold St.waitOne
    split
    · rename_i hm
      intro m hmm
      simp only [hm] at hmm
      cases hmm
    split
    · rename_i w' n hw
      have hf := firstHit_one i.core hw order
      split
      · rename_i hfn
        have hq := hkeep (hf.trans hfn)
        intro m hm
        rw [hq]
        exact t m hm
      · rename_i k hk
        obtain ⟨hlt, -⟩ := find_some_range hpp hk
        have hm : s.members[k]? = some s.members[k] := List.getElem?_eq_getElem hlt
        split
        · exact TakenOk.wonBy hm ht (hrep k (hf.trans hk)) s.wait hna (St.wonBy s w k).log
        · exact TakenOk.wonBy hm ht (hrep k (hf.trans hk)) (St.wonBy s w' k).wait
            (by rcases wonBy_eq s w' k _ hm with ⟨_, _, h⟩ | ⟨_, h⟩ <;> simp [h]) _
    · rename_i hno
      have hw : s.wait = none := by
        cases hw : s.wait with
        | none => rfl
        | some x =>
          cases x with
          | one w' n => exact absurd hw (hno w' n)
          | all w' ids => exact absurd hw (hna _ _)
      have hf := firstHit_none i.core hw order
      split
      · rename_i hfn
        have hq := hkeep (hf.trans hfn)
        intro m hm
        rw [hq]
        have := t m hm
        rw [this, hw]
        simp
      · rename_i k hk
        obtain ⟨hlt, -⟩ := find_some_range hpp hk
        have hm : s.members[k]? = some s.members[k] := List.getElem?_eq_getElem hlt
        exact TakenOk.wonBy hm ht (hrep k (hf.trans hk)) (St.wonBy s w k).wait
          (by rcases wonBy_eq s w k _ hm with ⟨_, _, h⟩ | ⟨_, h⟩ <;> simp [h]) (St.wonBy s w k).log
  | complete id o =>
    obtain ⟨m, hm, hmid⟩ := findIdx_complete hc
    have hcore := Core.ended i hc
    have hids : ({ s with members := s.ended id o } : St).ids = s.ids := ended_ids s id o
    -- it has not ended before
    have hnone : outcome id es = none := by
      obtain ⟨m1, hm1, hid1, hout1⟩ : ∃ m ∈ s.members, m.id = id ∧ m.out = none := by
        simpa [St.can, List.any_eq_true] using hc
      rw [← hid1, ← i.out _ hm1, hout1]
    have hrep0 : ∀ j, j ≠ id → (Reported cn ce (es ++ [.complete id o]) j ↔ Reported cn ce es j) := by
      intro j hj
      rw [hsn]
      constructor
      · rintro (h | ⟨_, _, h, -⟩ | ⟨_, _, _, _, h, -⟩)
        · exact h
        · cases h; exact absurd rfl hj
        · cases h
      · exact .inl
    have hnotrep : ¬ Reported cn ce es id := by
      rintro ⟨a, e, b, rfl, hr⟩
      rcases hr with ⟨x, k, rfl, -⟩ | ⟨_, _, _, x, -, -, -, hx⟩
      · rw [outcome_append] at hnone
        simp [outcome] at hnone
      · rw [outcome_append, hx] at hnone
        simp at hnone
    have hrepid : Reported cn ce (es ++ [.complete id o]) id ↔
        (∃ x, o = .err x) ∧ s.waitedAt (s.members.findIdx fun m => decide (m.id = id)) = true := by
      rw [hsn]
      have hpos := ids_at hm
      rw [hmid] at hpos
      constructor
      · rintro (h | ⟨x, k, h, h1, h2⟩ | ⟨_, _, _, _, h, -⟩)
        · exact absurd h hnotrep
        · cases h
          rw [same_at i.core h1 hpos] at h2
          exact ⟨⟨x, rfl⟩, h2⟩
        · cases h
      · rintro ⟨⟨x, rfl⟩, h⟩
        exact .inr (.inl ⟨x, _, rfl, hpos, h⟩)
    -- the members after the end, before a wait ends
    have hkeep : ∀ wt : Option Wait, wt = s.wait →
        s.waitedAt (s.members.findIdx fun m => decide (m.id = id)) = false →
        TakenOk cn ce (es ++ [.complete id o]) { s with members := s.ended id o, wait := wt } := by
      rintro wt rfl hwa y hy
      obtain ⟨m0, h0, ha, ⟨hb, hb2, hb3⟩ | ⟨hb, rfl⟩⟩ := mem_ended hy
      · rw [ha, hb, hrepid, hwa, hb3, hb2]
        simp only [St.inAll, Option.isSome_some, Bool.false_eq_true, and_false, or_false, true_and]
        split
        · rename_i w' ids hw
          simp only [List.contains_iff_mem, hw]
          constructor
          · intro h; exact ⟨w', ids, rfl, h⟩
          · rintro ⟨_, _, h, h2⟩
            cases h
            exact h2
        · rename_i hno
          simp only [Bool.false_eq_true, false_iff]
          rintro ⟨_, _, h, -⟩
          exact hno _ _ h
      · rw [hrep0 _ hb]
        exact t y h0
    simp only [St.act]
    unfold St.complete
    split
    · rename_i hw
      have := hkeep s.wait rfl (by simp [St.waitedAt, hw])
      rw [hw] at this ⊢
      exact this
    · rename_i w n hw
      split
      · rename_i hlt
        obtain ⟨m', hm', hid', hout'⟩ := ended_at (o := o) hm hmid
        have hna : ∀ a ids, ({ s with members := s.ended id o } : St).wait ≠ some (.all a ids) := by
          intro a ids h
          change s.wait = _ at h
          rw [hw] at h
          cases h
        have hwa : s.waitedAt (s.members.findIdx fun m => decide (m.id = id)) = true := by
          simpa [St.waitedAt, hw] using hlt
        have hpos := ids_at hm
        rw [hmid] at hpos
        have hT := TakenOk.wonBy (s := { s with members := s.ended id o }) (h := es) (cn := cn) (ce := ce)
          (w := w) (h' := es ++ [.complete id o]) hm' ?_ ?_
          (St.wonBy { s with members := s.ended id o } w (s.members.findIdx fun m => m.id = id)).wait
          (by rcases wonBy_eq { s with members := s.ended id o } w _ _ hm' with ⟨_, _, h⟩ | ⟨_, h⟩ <;> simp [h])
          (St.wonBy { s with members := s.ended id o } w (s.members.findIdx fun m => m.id = id)).log
        · exact hT
        · intro y hy
          obtain ⟨m0, h0, ha, ⟨hb, hb2, hb3⟩ | ⟨hb, rfl⟩⟩ := mem_ended hy
          · rw [ha, hb, hb3, hb2]
            simp [hnotrep, St.inAll, hw]
          · rw [t y h0]
            constructor
            · rintro ⟨a, ⟨w', ids, b, -⟩ | b⟩
              · rw [hw] at b; cases b
              · exact ⟨a, b⟩
            · rintro ⟨a, b⟩; exact ⟨a, .inr b⟩
        · intro y j hy
          have hyid := ids_at (s := { s with members := s.ended id o }) hy
          rw [hids] at hyid
          obtain ⟨m0, h0, ha, ⟨hb, hb2, hb3⟩ | ⟨hb, rfl⟩⟩ := mem_ended (List.mem_of_getElem? hy)
          · rw [ha, hb] at hyid
            have hjk := same_at i.core hyid hpos
            rw [ha, hb, hrepid, hwa, hb2]
            constructor
            · rintro ⟨⟨x, rfl⟩, -⟩
              exact .inr ⟨hjk, x, rfl⟩
            · rintro (h | ⟨-, x, hx⟩)
              · exact absurd h hnotrep
              · exact ⟨⟨x, Option.some.inj hx⟩, rfl⟩
          · rw [hrep0 _ hb]
            constructor
            · exact .inl
            · rintro (h | ⟨rfl, -⟩)
              · exact h
              · rw [hpos] at hyid
                exact absurd (Option.some.inj hyid).symm hb
      · rename_i hge
        exact hkeep s.wait rfl (by simpa [St.waitedAt, hw] using hge)
    · rename_i w ids hw
      split
      · intro y hy; cases hy
      · exact hkeep s.wait rfl (by simp [St.waitedAt, hw])

end Cobalt.Group
