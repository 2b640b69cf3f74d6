import Verif.Group.Spec

/-!
# Facts about every history of a `wait_group`
-/
namespace Cobalt.Group

theorem pushes_append (a b : List Ev) : pushes (a ++ b) = pushes a ++ pushes b := by
  induction a with
  | nil => rfl
  | cons e a ih => cases e <;> simp [pushes, ih]

theorem outcome_append (id : Nat) (a b : List Ev) :
    outcome id (a ++ b) = (outcome id a).or (outcome id b) := by
  induction a with
  | nil => rfl
  | cons e a ih =>
    cases e <;> simp only [List.cons_append, outcome, ih]
    split <;> simp

theorem cons_eraseIdx_perm {α : Type} {l : List α} {i : Nat} (hi : i < l.length) :
    (l[i] :: l.eraseIdx i).Perm l := by
  induction l generalizing i with
  | nil => simp at hi
  | cons a l ih =>
    cases i with
    | zero => exact List.Perm.refl _
    | succ i =>
      simp only [List.getElem_cons_succ, List.eraseIdx_cons_succ]
      exact (List.Perm.swap _ _ _).trans ((ih (by simpa using hi)).cons a)

theorem filter_append_perm {α : Type} (p : α → Bool) (l : List α) :
    (l.filter p ++ l.filter fun a => !p a).Perm l := by
  induction l with
  | nil => exact List.Perm.refl _
  | cons a l ih =>
    cases hp : p a
    · simp only [List.filter_cons, hp, Bool.not_false, if_true, Bool.false_eq_true, if_false]
      exact List.perm_middle.trans (ih.cons a)
    · simp only [List.filter_cons, hp, Bool.not_true, if_true, Bool.false_eq_true, if_false]
      exact ih.cons a

structure Inv (h : List Ev) (s : St) : Prop where
  ub : s.ub = false
  perm : (s.gone.map Mem.id ++ s.members.map Mem.id).Perm (pushes h)
  nodup : (pushes h).Nodup
  out : ∀ m ∈ s.members, m.out = outcome m.id h
  outG : ∀ m ∈ s.gone, m.out = outcome m.id h
  fresh : ∀ id, id ∉ pushes h → outcome id h = none
  one : ∀ w n, s.wait = some (.one w n) → 0 < n ∧ n ≤ s.members.length ∧
    ∀ i m, i < n → s.members[i]? = some m → m.out = none
  all : ∀ w ids, s.wait = some (.all w ids) →
    (∀ id ∈ ids, id ∈ s.members.map Mem.id) ∧
    (∃ m ∈ s.members, m.id ∈ ids ∧ m.out = none) ∧
    (∀ m ∈ s.members, m.id ∈ ids → m.out.isSome = true → m.taken = true)
  taken : ∀ m ∈ s.members, m.taken = true → m.out.isSome = true ∧
    ((∃ x w, m.out = some (.err x) ∧ (w, Res.err x) ∈ s.log) ∨ ∃ w ids, s.wait = some (.all w ids) ∧ m.id ∈ ids)

theorem Inv.init (cn ce : Nat) : Inv [] { normal := cn, except := ce } := by
  constructor <;> simp [pushes, outcome]

/-- An event that is neither `push` nor `complete` leaves the history's promises alone. -/
def quiet : Ev → Bool
  | .push _ | .complete _ _ => false
  | _ => true

theorem pushes_quiet {h : List Ev} {e : Ev} (q : quiet e = true) : pushes (h ++ [e]) = pushes h := by
  rw [pushes_append]; cases e <;> simp_all [quiet, pushes]

theorem outcome_quiet {h : List Ev} {e : Ev} (q : quiet e = true) (id : Nat) :
    outcome id (h ++ [e]) = outcome id h := by
  rw [outcome_append]; cases e <;> simp_all [quiet, outcome]

theorem Inv.quiet {h : List Ev} {e : Ev} {s : St} (q : quiet e = true) (i : Inv h s) : Inv (h ++ [e]) s := by
  have hp := pushes_quiet (h := h) q
  have ho := fun id => outcome_quiet (h := h) q id
  exact ⟨i.ub, hp ▸ i.perm, hp ▸ i.nodup, fun m hm => ho m.id ▸ i.out m hm, fun m hm => ho m.id ▸ i.outG m hm,
    fun id hid => ho id ▸ i.fresh id (hp ▸ hid), i.one, i.all, i.taken⟩

theorem Inv.nodupM {h : List Ev} {s : St} (i : Inv h s) : (s.members.map Mem.id).Nodup :=
  ((i.perm.nodup_iff.2 i.nodup).sublist (List.sublist_append_right _ _))

/-- Everything about the invariant but the pending wait and the results taken. -/
structure Core (h : List Ev) (s : St) : Prop where
  ub : s.ub = false
  perm : (s.gone.map Mem.id ++ s.members.map Mem.id).Perm (pushes h)
  nodup : (pushes h).Nodup
  out : ∀ m ∈ s.members, m.out = outcome m.id h
  outG : ∀ m ∈ s.gone, m.out = outcome m.id h
  fresh : ∀ id, id ∉ pushes h → outcome id h = none

theorem Inv.core {h : List Ev} {s : St} (i : Inv h s) : Core h s :=
  ⟨i.ub, i.perm, i.nodup, i.out, i.outG, i.fresh⟩

theorem Core.nodupM {h : List Ev} {s : St} (i : Core h s) : (s.members.map Mem.id).Nodup :=
  ((i.perm.nodup_iff.2 i.nodup).sublist (List.sublist_append_right _ _))

/-- The cases of a race being won. -/
theorem wonBy_eq (s : St) (w i : Nat) (m : Mem) (hm : s.members[i]? = some m) :
    (∃ x, m.out = some (.err x) ∧ St.wonBy s w i = { s with
        members := s.members.set i { m with taken := true }, wait := none, log := (w, .err x) :: s.log }) ∨
    ((∀ x, m.out ≠ some (.err x)) ∧ St.wonBy s w i = { s with
        members := s.members.eraseIdx i, wait := none, log := (w, .ok) :: s.log
        gone := { m with taken := true } :: s.gone }) := by
  rcases ho : m.out with _ | o
  · right; simp [St.wonBy, hm, ho]
  · cases o with
    | ok => right; simp [St.wonBy, hm, ho]
    | err x => left; exact ⟨x, by simp [St.wonBy, hm, ho]⟩

/-- `wonBy` from a state in which no `wait` is pending: the wait field can be set to
anything that suits. -/
theorem Core.wonBy {h : List Ev} {s : St} {w i : Nat} {m : Mem} (c : Core h s)
    (hm : s.members[i]? = some m) : Core h (St.wonBy s w i) := by
  have hi : i < s.members.length := by
    rcases List.getElem?_eq_some_iff.1 hm with ⟨hi, -⟩; exact hi
  have hmm : s.members[i] = m := by
    rcases List.getElem?_eq_some_iff.1 hm with ⟨_, h⟩; exact h
  have hmem : m ∈ s.members := hmm ▸ List.getElem_mem hi
  rcases wonBy_eq s w i m hm with ⟨x, ho, he⟩ | ⟨hn, he⟩ <;> rw [he]
  · refine ⟨c.ub, ?_, c.nodup, ?_, c.outG, c.fresh⟩
    · have : (s.members.set i { m with taken := true }).map Mem.id = s.members.map Mem.id := by
        rw [List.map_set]
        apply List.ext_getElem?
        intro k
        by_cases hk : i = k
        · subst hk; simp [hi, hmm]
        · simp [hk]
      rw [this]; exact c.perm
    · intro m' hm'
      rcases List.mem_or_eq_of_mem_set hm' with h1 | h1
      · exact c.out _ h1
      · subst h1; exact c.out m hmem
  · refine ⟨c.ub, ?_, c.nodup, ?_, ?_, c.fresh⟩
    · refine List.Perm.trans ?_ c.perm
      simp only [List.map_cons, List.cons_append]
      refine List.perm_middle.symm.trans (List.Perm.append_left _ ?_)
      have := (cons_eraseIdx_perm hi).map Mem.id
      simpa [hmm] using this
    · intro m' hm'
      exact c.out _ (List.mem_of_mem_eraseIdx hm')
    · intro m' hm'
      rcases List.mem_cons.1 hm' with h1 | h1
      · subst h1; exact c.out m hmem
      · exact c.outG _ h1

theorem wonBy_taken {s : St} {w i : Nat} {m : Mem}
    (hm : s.members[i]? = some m) (nw : ∀ w ids, s.wait ≠ some (.all w ids))
    (ht : ∀ m ∈ s.members, m.taken = true → m.out.isSome = true ∧
      ((∃ x w, m.out = some (.err x) ∧ (w, Res.err x) ∈ s.log) ∨ ∃ w ids, s.wait = some (.all w ids) ∧ m.id ∈ ids)) :
    ∀ m ∈ (St.wonBy s w i).members, m.taken = true → m.out.isSome = true ∧
      ∃ x w', m.out = some (.err x) ∧ (w', Res.err x) ∈ (St.wonBy s w i).log := by
  have ht' : ∀ m ∈ s.members, m.taken = true → m.out.isSome = true ∧
      ∃ x w, m.out = some (.err x) ∧ (w, Res.err x) ∈ s.log := by
    intro m hm h
    obtain ⟨a, b | ⟨w, ids, b, -⟩⟩ := ht m hm h
    · exact ⟨a, b⟩
    · exact absurd b (nw w ids)
  rcases wonBy_eq s w i m hm with ⟨x, ho, he⟩ | ⟨hn, he⟩ <;> rw [he]
  · intro m' hm' h
    rcases List.mem_or_eq_of_mem_set hm' with h1 | h1
    · obtain ⟨a, x, w, b, d⟩ := ht' _ h1 h
      exact ⟨a, x, w, b, List.mem_cons_of_mem _ d⟩
    · subst h1; exact ⟨by simp [ho], x, w, by simp [ho], List.mem_cons_self⟩
  · intro m' hm' h
    obtain ⟨a, x, w, b, d⟩ := ht' _ (List.mem_of_mem_eraseIdx hm') h
    exact ⟨a, x, w, b, List.mem_cons_of_mem _ d⟩

theorem wonBy_wait (s : St) (w i : Nat) (m : Mem) (hm : s.members[i]? = some m) :
    (St.wonBy s w i).wait = none := by
  rcases wonBy_eq s w i m hm with ⟨x, ho, he⟩ | ⟨hn, he⟩ <;> rw [he]

theorem Inv.wonBy {h : List Ev} {s : St} {w i : Nat} {m : Mem} (c : Core h s)
    (hm : s.members[i]? = some m) (nw : ∀ w ids, s.wait ≠ some (.all w ids))
    (ht : ∀ m ∈ s.members, m.taken = true → m.out.isSome = true ∧
      ((∃ x w, m.out = some (.err x) ∧ (w, Res.err x) ∈ s.log) ∨ ∃ w ids, s.wait = some (.all w ids) ∧ m.id ∈ ids)) :
    Inv h (St.wonBy s w i) := by
  have c' := c.wonBy (w := w) hm
  have t' := wonBy_taken (w := w) hm nw ht
  have w' := wonBy_wait s w i m hm
  exact ⟨c'.ub, c'.perm, c'.nodup, c'.out, c'.outG, c'.fresh, by simp [w'], by simp [w'],
    fun m hm h => ⟨(t' m hm h).1, .inl (t' m hm h).2⟩⟩

theorem doneAt_iff (s : St) (i : Nat) :
    s.doneAt i = true ↔ ∃ m, s.members[i]? = some m ∧ m.out.isSome = true := by
  unfold St.doneAt
  split <;> simp_all

theorem find_range {order : List Nat} {n : Nat} {p : Nat → Bool} (hp : order.Perm (List.range n))
    (h : order.find? p = none) : ∀ i < n, p i = false := by
  intro i hi
  have := List.find?_eq_none.1 h i (hp.mem_iff.2 (List.mem_range.2 hi))
  simpa using this

theorem find_some_range {order : List Nat} {n i : Nat} {p : Nat → Bool} (hp : order.Perm (List.range n))
    (h : order.find? p = some i) : i < n ∧ p i = true :=
  ⟨List.mem_range.1 (hp.mem_iff.1 (List.mem_of_find?_eq_some h)), List.find?_some h⟩

theorem Inv.withLog {h : List Ev} {s : St} (i : Inv h s) (x : Nat × Res) : Inv h { s with log := x :: s.log } := by
  refine ⟨i.ub, i.perm, i.nodup, i.out, i.outG, i.fresh, i.one, i.all, ?_⟩
  intro m hm ht
  obtain ⟨a, ⟨x, w, b, c⟩ | b⟩ := i.taken m hm ht
  · exact ⟨a, .inl ⟨x, w, b, List.mem_cons_of_mem _ c⟩⟩
  · exact ⟨a, .inr b⟩

theorem Inv.waitOne {h : List Ev} {s : St} {w : Nat} {order : List Nat} (i : Inv h s)
    (hc : s.can (.waitOne w order) = true) : Inv h (St.waitOne s w order) := by
  have hp : order.Perm (List.range s.members.length) := by
    simp only [St.can, Bool.and_eq_true] at hc
    exact List.isPerm_iff.1 hc.1
  have nw : ∀ w ids, s.wait ≠ some (.all w ids) := by
    intro w ids hw
    simp [St.can, hw] at hc
  unfold St.waitOne
  split
  · exact i.withLog _
  rename_i hne
  have hpos : 0 < s.members.length := List.length_pos_iff.2 hne
  split
  · rename_i w' n hw
    obtain ⟨n0, nle, nd⟩ := i.one _ _ hw
    split
    · rename_i hf
      have := find_range hp hf 0 hpos
      simp [n0] at this
    · rename_i k hf
      obtain ⟨hk, hk2⟩ := find_some_range hp hf
      have hm : s.members[k]? = some s.members[k] := List.getElem?_eq_getElem hk
      split
      · rename_i hd
        have hkn : n ≤ k := by
          obtain ⟨m, a, b⟩ := (doneAt_iff s k).1 hd
          refine Nat.le_of_not_lt fun hlt => ?_
          have := nd k m hlt a
          simp [this] at b
        have c' := i.core.wonBy (w := w) hm
        have t' := wonBy_taken (w := w) hm nw i.taken
        refine ⟨c'.ub, c'.perm, c'.nodup, c'.out, c'.outG, c'.fresh, ?_, ?_, ?_⟩
        · intro w2 n2 e
          have : n2 = n := by simp_all
          subst this
          obtain ⟨mo, ho, hos⟩ := (doneAt_iff s k).1 hd
          rcases wonBy_eq s w k _ hm with ⟨x, ho, he⟩ | ⟨hn, he⟩ <;> rw [he]
          · refine ⟨n0, by simpa using nle, ?_⟩
            intro j m hj hjm
            have : k ≠ j := by omega
            simp only [List.getElem?_set_ne this] at hjm
            exact nd j m hj hjm
          · refine ⟨n0, ?_, ?_⟩
            · simp only [List.length_eraseIdx, hk, if_true]; omega
            · intro j m hj hjm
              simp only [List.getElem?_eraseIdx, show j < k by omega, if_true] at hjm
              exact nd j m hj hjm
        · intro w2 ids e; exact absurd e (nw _ _)
        · exact fun m hm h => ⟨(t' m hm h).1, .inl (t' m hm h).2⟩
      · exact (Inv.wonBy (w := w') i.core hm nw i.taken).withLog _
  · rename_i hw
    split
    · rename_i hf
      have hd := find_range hp hf
      refine ⟨i.ub, i.perm, i.nodup, i.out, i.outG, i.fresh, ?_, by simp, ?_⟩
      · intro w2 n2 e
        obtain ⟨rfl, rfl⟩ : w = w2 ∧ s.members.length = n2 := by simpa using e
        refine ⟨hpos, Nat.le_refl _, ?_⟩
        intro j m hj hm
        have := hd j hj
        cases ho : m.out with
        | none => rfl
        | some o => rw [(doneAt_iff s j).2 ⟨m, hm, by simp [ho]⟩] at this; cases this
      · intro m hm h
        obtain ⟨a, b | ⟨w, ids, b, -⟩⟩ := i.taken m hm h
        · exact ⟨a, .inl b⟩
        · exact absurd b (nw w ids)
    · rename_i k hf
      obtain ⟨hk, hk2⟩ := find_some_range hp hf
      exact Inv.wonBy i.core (List.getElem?_eq_getElem hk) nw i.taken

theorem Inv.clear {h : List Ev} {s : St} {w : Nat} (i : Core h s) : Inv h (St.clear s w) := by
  refine ⟨i.ub, ?_, i.nodup, by simp [St.clear], ?_, i.fresh, by simp [St.clear], by simp [St.clear],
    by simp [St.clear]⟩
  · refine List.Perm.trans ?_ i.perm
    simp only [St.clear, List.map_append, List.map_nil, List.append_nil, List.map_reverse]
    exact List.perm_append_comm.trans (List.Perm.append_left _ (List.reverse_perm _))
  · intro m hm
    simp only [St.clear, List.mem_append, List.mem_reverse] at hm
    rcases hm with hm | hm
    · exact i.out _ hm
    · exact i.outG _ hm

theorem Inv.waitAll {h : List Ev} {s : St} {w : Nat} (i : Inv h s) (hw : s.wait = none) :
    Inv h (St.waitAll s w) := by
  unfold St.waitAll
  split
  · exact i.withLog _
  split
  · exact Inv.clear i.core
  · rename_i hne hna
    refine ⟨i.ub, ?_, i.nodup, ?_, i.outG, i.fresh, by simp, ?_, ?_⟩
    · simpa [List.map_map, Function.comp_def] using i.perm
    · intro m hm
      obtain ⟨m0, hm0, rfl⟩ := List.mem_map.1 hm
      exact i.out m0 hm0
    · intro w2 ids e
      obtain ⟨rfl, rfl⟩ : w = w2 ∧ s.members.map Mem.id = ids := by simpa using e
      refine ⟨by simp [List.map_map, Function.comp_def], ?_, ?_⟩
      · obtain ⟨m, hm, hs⟩ := List.all_eq_false.1 (Bool.eq_false_iff.2 hna)
        exact ⟨_, List.mem_map.2 ⟨m, hm, rfl⟩, List.mem_map.2 ⟨m, hm, rfl⟩, by simpa using hs⟩
      · intro m hm _ hs
        obtain ⟨m0, hm0, rfl⟩ := List.mem_map.1 hm
        simp at hs ⊢; exact .inr hs
    · intro m hm ht
      obtain ⟨m0, hm0, rfl⟩ := List.mem_map.1 hm
      simp only [Bool.or_eq_true] at ht
      have hs : m0.out.isSome = true := by
        rcases ht with ht | ht
        · exact (i.taken _ hm0 ht).1
        · exact ht
      exact ⟨hs, .inr ⟨w, _, rfl, List.mem_map.2 ⟨m0, hm0, rfl⟩⟩⟩

theorem Inv.cancelAll {h : List Ev} {s : St} (i : Inv h s) (ct : Nat) : Inv h (St.cancelAll s ct) := by
  have hid : ∀ m : Mem, (if m.out = none then { m with cancels := ct :: m.cancels } else m).id = m.id := by
    intro m; split <;> rfl
  have hout : ∀ m : Mem, (if m.out = none then { m with cancels := ct :: m.cancels } else m).out = m.out := by
    intro m; split <;> rfl
  have ht : ∀ m : Mem, (if m.out = none then { m with cancels := ct :: m.cancels } else m).taken = m.taken := by
    intro m; split <;> rfl
  have hmap : (St.cancelAll s ct).members.map Mem.id = s.members.map Mem.id := by
    simp only [St.cancelAll, List.map_map]
    exact List.map_congr_left (fun m _ => hid m)
  have hex : ∀ m ∈ (St.cancelAll s ct).members, ∃ m0 ∈ s.members, m.id = m0.id ∧ m.out = m0.out ∧ m.taken = m0.taken := by
    intro m hm
    obtain ⟨m0, hm0, rfl⟩ := List.mem_map.1 hm
    exact ⟨m0, hm0, hid m0, hout m0, ht m0⟩
  refine ⟨i.ub, by rw [hmap]; exact i.perm, i.nodup, ?_, i.outG, i.fresh, ?_, ?_, ?_⟩
  · intro m hm
    obtain ⟨m0, hm0, a, b, -⟩ := hex m hm
    rw [a, b]; exact i.out _ hm0
  · intro w n e
    obtain ⟨a, b, c⟩ := i.one w n e
    refine ⟨a, by simpa [St.cancelAll] using b, ?_⟩
    intro j m hj hm
    simp only [St.cancelAll, List.getElem?_map, Option.map_eq_some_iff] at hm
    obtain ⟨m0, h0, rfl⟩ := hm
    rw [hout]; exact c j m0 hj h0
  · intro w ids e
    obtain ⟨a, ⟨m, hm, b, c⟩, d⟩ := i.all w ids e
    refine ⟨by rw [hmap]; exact a, ⟨_, List.mem_map.2 ⟨m, hm, rfl⟩, by rw [hid]; exact b, by rw [hout]; exact c⟩, ?_⟩
    intro m hm h1 h2
    obtain ⟨m0, hm0, x, y, z⟩ := hex m hm
    rw [z]; exact d m0 hm0 (x ▸ h1) (y ▸ h2)
  · intro m hm h
    obtain ⟨m0, hm0, x, y, z⟩ := hex m hm
    rw [y, x]; exact i.taken m0 hm0 (z ▸ h)

theorem Inv.exit {h : List Ev} {s : St} {w : Nat} (b : Bool) (i : Inv h s) (hw : s.wait = none) :
    Inv h (St.exit s w b) := by
  cases b <;> simp only [St.exit, Bool.false_eq_true, if_false, if_true] <;> split
  · exact (i.cancelAll _).waitAll hw
  · exact i.waitAll hw
  · exact (i.cancelAll _).waitAll hw
  · exact i.waitAll hw

theorem filter_prefix {α : Type} {p : α → Bool} {l : List α} {n : Nat} (hn : n ≤ l.length)
    (h : ∀ i m, i < n → l[i]? = some m → p m = true) :
    n ≤ (l.filter p).length ∧ ∀ i, i < n → (l.filter p)[i]? = l[i]? := by
  induction l generalizing n with
  | nil => simp_all
  | cons a l ih =>
    cases n with
    | zero => simp
    | succ n =>
      have ha : p a = true := h 0 a (by omega) rfl
      have := ih (n := n) (by simpa using hn) (fun i m hi hm => h (i + 1) m (by omega) (by simpa using hm))
      rw [List.filter_cons_of_pos ha]
      refine ⟨by simpa using this.1, ?_⟩
      intro i hi
      cases i with
      | zero => rfl
      | succ i => simpa using this.2 i (by omega)

theorem Inv.reap {h : List Ev} {s : St} (i : Inv h s) : Inv h (St.reap s) := by
  refine ⟨i.ub, ?_, i.nodup, ?_, ?_, i.fresh, ?_, ?_, ?_⟩
  · refine List.Perm.trans ?_ i.perm
    simp only [St.reap, List.map_append, List.map_reverse]
    have hf := (filter_append_perm (fun m : Mem => m.out.isSome && !m.taken) s.members).map Mem.id
    rw [List.map_append] at hf
    refine ((((List.reverse_perm _).append_right _).trans List.perm_append_comm).append_right _).trans ?_
    rw [List.append_assoc]
    exact hf.append_left _
  · intro m hm
    exact i.out _ ((List.mem_filter.1 hm).1)
  · intro m hm
    simp only [St.reap, List.mem_append, List.mem_reverse] at hm
    rcases hm with hm | hm
    · exact i.out _ ((List.mem_filter.1 hm).1)
    · exact i.outG _ hm
  · intro w n e
    obtain ⟨a, b, c⟩ := i.one w n e
    have := filter_prefix (p := fun m : Mem => !(m.out.isSome && !m.taken)) b (by
      intro j m hj hm; simp [c j m hj hm])
    refine ⟨a, this.1, ?_⟩
    intro j m hj hm
    exact c j m hj (this.2 j hj ▸ hm)
  · intro w ids e
    obtain ⟨a, ⟨m, hm, b, c⟩, d⟩ := i.all w ids e
    refine ⟨?_, ⟨m, List.mem_filter.2 ⟨hm, by simp [c]⟩, b, c⟩, ?_⟩
    · intro id hid
      obtain ⟨m0, h0, rfl⟩ := List.mem_map.1 (a id hid)
      refine List.mem_map.2 ⟨m0, List.mem_filter.2 ⟨h0, ?_⟩, rfl⟩
      cases ho : m0.out.isSome with
      | false => rfl
      | true => simp [d m0 h0 hid ho]
    · intro m hm
      exact d m ((List.mem_filter.1 hm).1)
  · intro m hm
    exact i.taken m ((List.mem_filter.1 hm).1)

theorem Inv.push {h : List Ev} {s : St} {id : Nat} (i : Inv h s) (hc : s.can (.push id) = true) :
    Inv (h ++ [.push id]) { s with members := s.members ++ [{ id := id }] } := by
  have hnew : id ∉ pushes h := by
    rw [← i.perm.mem_iff]
    simp only [St.can, Bool.and_eq_true, Bool.not_eq_true', List.any_eq_false, beq_iff_eq] at hc
    simp only [List.mem_append, List.mem_map, not_or, not_exists, not_and]
    exact ⟨hc.2, hc.1⟩
  have hp : pushes (h ++ [.push id]) = pushes h ++ [id] := by rw [pushes_append]; rfl
  have ho : ∀ j, outcome j (h ++ [.push id]) = outcome j h := by
    intro j; rw [outcome_append]; simp [outcome]
  refine ⟨i.ub, ?_, ?_, ?_, ?_, ?_, ?_, ?_, ?_⟩
  · rw [hp]; simpa using (i.perm.append_right [id])
  · rw [hp, List.nodup_append]
    refine ⟨i.nodup, by simp, ?_⟩
    intro a ha b hb; simp at hb; subst hb; intro e; subst e; exact hnew ha
  · intro m hm
    rw [ho]
    rcases List.mem_append.1 hm with h1 | h1
    · exact i.out _ h1
    · simp at h1; subst h1; exact (i.fresh _ hnew).symm
  · intro m hm; rw [ho]; exact i.outG _ hm
  · intro j hj; rw [ho]; rw [hp] at hj; exact i.fresh _ (fun h => hj (List.mem_append_left _ h))
  · intro w n e
    obtain ⟨a, b, c⟩ := i.one w n e
    refine ⟨a, by simp; omega, ?_⟩
    intro j m hj hm
    rw [List.getElem?_append_left (by omega)] at hm
    exact c j m hj hm
  · intro w ids e
    obtain ⟨a, ⟨m, hm, b, c⟩, d⟩ := i.all w ids e
    refine ⟨?_, ⟨m, List.mem_append_left _ hm, b, c⟩, ?_⟩
    · intro x hx
      simp only [List.map_append, List.mem_append]; exact .inl (a x hx)
    · intro m hm hid hs
      rcases List.mem_append.1 hm with h1 | h1
      · exact d m h1 hid hs
      · simp at h1; subst h1; simp at hs
  · intro m hm ht
    rcases List.mem_append.1 hm with h1 | h1
    · exact i.taken _ h1 ht
    · simp at h1; subst h1; simp at ht

theorem ended_ids (s : St) (id : Nat) (o : Out) : (s.ended id o).map Mem.id = s.members.map Mem.id := by
  simp only [St.ended, List.map_map]
  refine List.map_congr_left fun m _ => ?_
  simp only [Function.comp_apply]; split <;> rfl

theorem mem_ended {s : St} {id : Nat} {o : Out} {m : Mem} (hm : m ∈ s.ended id o) :
    ∃ m0 ∈ s.members, m.id = m0.id ∧
      ((m0.id = id ∧ m.out = some o ∧ m.taken = s.inAll id) ∨ (m0.id ≠ id ∧ m = m0)) := by
  obtain ⟨m0, h0, rfl⟩ := List.mem_map.1 hm
  by_cases hi : m0.id = id
  · exact ⟨m0, h0, by simp [hi], by simp [hi]⟩
  · exact ⟨m0, h0, by simp [hi], by simp [hi]⟩

theorem Inv.complete {h : List Ev} {s : St} {id : Nat} {o : Out} (i : Inv h s)
    (hc : s.can (.complete id o) = true) : Inv (h ++ [.complete id o]) (St.complete s id o) := by
  obtain ⟨m1, hm1, hid1, hout1⟩ : ∃ m ∈ s.members, m.id = id ∧ m.out = none := by
    simpa [St.can, List.any_eq_true] using hc
  have hn : outcome id h = none := by rw [← hid1, ← i.out _ hm1, hout1]
  have hp : pushes (h ++ [.complete id o]) = pushes h := by rw [pushes_append]; simp [pushes]
  have ho : ∀ j, outcome j (h ++ [.complete id o]) = if j = id then some o else outcome j h := by
    intro j; rw [outcome_append]
    by_cases hj : j = id
    · subst hj; simp [hn, outcome]
    · simp [hj, outcome, Ne.symm hj]
  have hmemP : id ∈ pushes h := by
    rw [← i.perm.mem_iff, List.mem_append]; exact .inr (List.mem_map.2 ⟨m1, hm1, hid1⟩)
  have hG : ∀ m ∈ s.gone, m.id ≠ id := by
    intro m hm e
    have := (List.nodup_append.1 (i.perm.nodup_iff.2 i.nodup)).2.2 m.id (List.mem_map.2 ⟨m, hm, rfl⟩)
      id (List.mem_map.2 ⟨m1, hm1, hid1⟩)
    exact this e
  have hc : Core (h ++ [.complete id o]) { s with members := s.ended id o } := by
    refine ⟨i.ub, by rw [hp, ended_ids]; exact i.perm, hp ▸ i.nodup, ?_, ?_, ?_⟩
    · intro m hm
      obtain ⟨m0, h0, a, b | b⟩ := mem_ended hm
      · rw [ho, a, b.1, b.2.1]; simp
      · rw [ho, b.2]; simp [b.1]; exact i.out _ h0
    · intro m hm
      rw [ho]; simp [hG m hm]; exact i.outG _ hm
    · intro j hj
      rw [hp] at hj
      rw [ho]
      have : j ≠ id := fun e => hj (e ▸ hmemP)
      simp [this]; exact i.fresh _ hj
  have htk : ∀ m ∈ s.ended id o, m.taken = true → m.out.isSome = true ∧
      ((∃ x w, m.out = some (.err x) ∧ (w, Res.err x) ∈ s.log) ∨ ∃ w ids, s.wait = some (.all w ids) ∧ m.id ∈ ids) := by
    intro m hm ht
    obtain ⟨m0, h0, a, b | b⟩ := mem_ended hm
    · refine ⟨by simp [b.2.1], .inr ?_⟩
      rw [b.2.2] at ht
      unfold St.inAll at ht
      split at ht
      · rename_i w ids hw
        exact ⟨w, ids, hw, by rw [a, b.1]; simpa using ht⟩
      · cases ht
    · rw [b.2] at ht ⊢; exact i.taken m0 h0 ht
  unfold St.complete
  split
  · rename_i hw
    exact ⟨hc.ub, hc.perm, hc.nodup, hc.out, hc.outG, hc.fresh, by simp [hw], by simp [hw], htk⟩
  · rename_i w n hw
    split
    · rename_i hlt
      have hl : s.members.findIdx (fun m => decide (m.id = id)) < (s.ended id o).length := by
        have := (i.one _ _ hw).2.1
        simp only [St.ended, List.length_map]; omega
      refine Inv.wonBy (m := (s.ended id o)[s.members.findIdx fun m => decide (m.id = id)]) hc
        (List.getElem?_eq_getElem hl) (by simp [hw]) htk
    · rename_i hlt
      refine ⟨hc.ub, hc.perm, hc.nodup, hc.out, hc.outG, hc.fresh, ?_, by simp [hw], htk⟩
      intro w2 n2 e
      obtain ⟨rfl, rfl⟩ : w = w2 ∧ n = n2 := by simpa [hw] using e
      obtain ⟨a, b, c⟩ := i.one _ _ hw
      refine ⟨a, by simpa [St.ended] using b, ?_⟩
      intro j m hj hm
      simp only [St.ended, List.getElem?_map, Option.map_eq_some_iff] at hm
      obtain ⟨m0, h0, rfl⟩ := hm
      obtain ⟨hjl, hje⟩ := List.getElem?_eq_some_iff.1 h0
      have hne := List.not_of_lt_findIdx (p := fun m : Mem => decide (m.id = id)) (xs := s.members) (i := j) (by omega)
      rw [hje] at hne
      simp only [decide_eq_true_eq, Bool.not_eq_true, decide_eq_false_iff_not] at hne
      simp only [hne, if_false]
      exact c j m0 hj h0
  · rename_i w ids hw
    split
    · exact Inv.clear hc
    · rename_i hna
      refine ⟨hc.ub, hc.perm, hc.nodup, hc.out, hc.outG, hc.fresh, by simp [hw], ?_, htk⟩
      intro w2 ids2 e
      obtain ⟨rfl, rfl⟩ : w = w2 ∧ ids = ids2 := by simpa [hw] using e
      obtain ⟨a, -, d⟩ := i.all _ _ hw
      refine ⟨by simpa only [ended_ids] using a, ?_, ?_⟩
      · obtain ⟨m, hm, hs⟩ := List.all_eq_false.1 (Bool.eq_false_iff.2 hna)
        refine ⟨m, hm, ?_⟩
        simpa using hs
      · intro m hm hid hs
        obtain ⟨m0, h0, x, y | y⟩ := mem_ended hm
        · rw [y.2.2]; simp only [St.inAll, hw]; rw [x, y.1] at hid; simpa using hid
        · rw [y.2] at hid hs ⊢; exact d m0 h0 hid hs

theorem step_eq {s : St} {e : Ev} (hu : s.ub = false) (hc : s.can e = true) : s.step e = s.act e := by
  simp [St.step, hu, hc]

theorem Inv.step {h : List Ev} {s : St} {e : Ev} (i : Inv h s) (hc : s.can e = true) :
    Inv (h ++ [e]) (s.step e) := by
  rw [step_eq i.ub hc]
  cases e with
  | push id => exact i.push hc
  | complete id o => exact i.complete hc
  | waitOne w order => exact (i.waitOne hc).quiet rfl
  | waitAll w => exact (i.waitAll (by simpa [St.can] using hc)).quiet rfl
  | exit w b => exact (i.exit b (by simpa [St.can] using hc)).quiet rfl
  | cancel ct => exact (i.cancelAll ct).quiet rfl
  | reap => exact i.reap.quiet rfl

theorem Inv.steps {es h : List Ev} {s : St} (i : Inv h s) (hl : Legal s es) : Inv (h ++ es) (s.steps es) := by
  induction es generalizing h s with
  | nil => simpa [St.steps] using i
  | cons e es ih =>
    have := ih (i.step hl.1) hl.2
    simpa [St.steps] using this

theorem Inv.run {cn ce : Nat} {es : List Ev} (hl : Legal { normal := cn, except := ce } es) :
    Inv es (St.run cn ce es) := by
  simpa [St.run] using (Inv.init cn ce).steps hl

theorem legal_snoc {s : St} {es : List Ev} {e : Ev} (hl : Legal s (es ++ [e])) :
    Legal s es ∧ (s.steps es).can e = true := by
  induction es generalizing s with
  | nil => exact ⟨trivial, hl.1⟩
  | cons a es ih =>
    have := ih hl.2
    exact ⟨⟨hl.1, this.1⟩, this.2⟩

theorem run_snoc (cn ce : Nat) (es : List Ev) (e : Ev) :
    St.run cn ce (es ++ [e]) = (St.run cn ce es).step e := by
  simp [St.run, St.steps]

end Cobalt.Group
