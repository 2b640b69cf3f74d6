import Verif.Limit.Spec
import Verif.Group.Props
/-!
# Lemmas for C106
-/
namespace Cobalt.Limit

open Group (Inv pushes)

theorem legal_snoc {s : St} {es : List Ev} {e : Ev} (hl : Legal s (es ++ [e])) :
    Legal s es ∧ (es.foldl St.step s).ok e = true := by
  induction es generalizing s with
  | nil => exact ⟨trivial, hl.1⟩
  | cons a es ih =>
    have := ih hl.2
    exact ⟨⟨hl.1, this.1⟩, this.2⟩

theorem outcome_append (c : Nat) (a b : List Ev) : outcome c (a ++ b) = (outcome c a).or (outcome c b) := by
  induction a with
  | nil => simp [outcome]
  | cons e a ih =>
    cases e with
    | finish d o =>
      simp only [List.cons_append, outcome]
      split
      · rfl
      · exact ih
    | _ => simpa [outcome] using ih

structure K (es : List Ev) (h : List Group.Ev) (s : St) : Prop where
  inv : Inv h s.g
  push : pushes h = s.started
  out : ∀ c, Group.outcome c h = outcome c es
  gone : ∀ m ∈ s.g.gone, m.out.isSome = true
  ord : s.started ++ s.pend = List.range s.conns
  one : s.ph = .one → ∃ w, s.g.wait = some (.one w s.g.members.length) ∧ s.g.members.length = s.lim
  idle : s.ph ≠ .one → s.g.wait = none
  le : s.g.members.length ≤ s.lim
  acc : s.ph = .accept → s.g.members.length < s.lim

/-- What `wait_one` does when the member at `i`, which has ended, wins. -/
theorem won {s : Group.St} {w i : Nat} {m : Group.Mem} (hm : s.members[i]? = some m) (ho : m.out.isSome = true) :
    (Group.St.wonBy s w i).wait = none ∧ (∀ m' ∈ (Group.St.wonBy s w i).gone, m' ∈ s.gone ∨ m'.out.isSome = true) ∧
    ((∃ x, m.out = some (.err x) ∧ (Group.St.wonBy s w i).log = (w, .err x) :: s.log ∧
        (Group.St.wonBy s w i).members.length = s.members.length) ∨
      (m.out = some .ok ∧ (Group.St.wonBy s w i).log = (w, .ok) :: s.log ∧
        (Group.St.wonBy s w i).members.length + 1 = s.members.length)) := by
  have hi : i < s.members.length := (List.getElem?_eq_some_iff.1 hm).1
  rcases Group.wonBy_eq s w i m hm with ⟨x, hx, he⟩ | ⟨hn, he⟩ <;> rw [he]
  · exact ⟨rfl, fun m' h => .inl h, .inl ⟨x, hx, rfl, by simp⟩⟩
  · refine ⟨rfl, fun m' h => ?_, .inr ⟨?_, rfl, ?_⟩⟩
    · rcases List.mem_cons.1 h with rfl | h
      · exact .inr ho
      · exact .inl h
    · cases hc : m.out with
      | none => rw [hc] at ho; cases ho
      | some o =>
        cases o with
        | ok => rfl
        | err x => exact absurd hc (hn x)
    · show (s.members.eraseIdx i).length + 1 = _
      rw [List.length_eraseIdx]
      simp only [hi, if_true]
      omega

theorem ended_length (s : Group.St) (c : Nat) (o : Group.Out) : (s.ended c o).length = s.members.length := by
  simp [Group.St.ended]

theorem complete_idle {s : Group.St} (hw : s.wait = none) (c : Nat) (o : Group.Out) :
    s.complete c o = { s with members := s.ended c o } := by
  unfold Group.St.complete
  rw [hw]

/-- A member ends while `wait_one` waits for all. -/
theorem complete_won {s : Group.St} {w : Nat} (hw : s.wait = some (.one w s.members.length)) {c : Nat} {o : Group.Out}
    (hc : s.can (.complete c o) = true) :
    ∃ i m, (s.ended c o)[i]? = some m ∧ m.id = c ∧ m.out = some o ∧
      s.complete c o = Group.St.wonBy { s with members := s.ended c o } w i := by
  obtain ⟨m, hm, hid⟩ := Group.findIdx_complete hc
  obtain ⟨m', hm', hid', ho'⟩ := Group.ended_at (o := o) hm hid
  refine ⟨_, m', hm', hid', ho', ?_⟩
  rw [Group.complete_one hw, if_pos]
  exact (List.getElem?_eq_some_iff.1 hm).1

/-- `wait_one` is called, and no other is pending. -/
theorem waitOne_cases {s : Group.St} (hw : s.wait = none) (hm : s.members ≠ []) (w : Nat) (order : List Nat) :
    (s.waitOne w order = { s with wait := some (.one w s.members.length) } ∧ order.find? s.doneAt = none) ∨
    ∃ i m, order.find? s.doneAt = some i ∧ s.members[i]? = some m ∧ m.out.isSome = true ∧
      s.waitOne w order = Group.St.wonBy s w i := by
  unfold Group.St.waitOne
  rw [if_neg hm, hw]
  dsimp only
  cases hf : order.find? s.doneAt with
  | none => exact .inl ⟨rfl, rfl⟩
  | some i =>
    have hd := List.find?_some hf
    unfold Group.St.doneAt at hd
    cases hi : s.members[i]? with
    | none => rw [hi] at hd; cases hd
    | some m =>
      rw [hi] at hd
      exact .inr ⟨i, m, rfl, hi, hd, rfl⟩

theorem full_iff {s : St} (h : s.g.members.length ≤ s.lim) : s.full = true ↔ s.g.members.length = s.lim := by
  unfold St.full
  cases s.kind <;> simp
  omega

theorem waited_fields (s : St) : s.waited.g = s.g ∧ s.waited.kind = s.kind ∧ s.waited.lim = s.lim ∧
    s.waited.conns = s.conns ∧ s.waited.pend = s.pend ∧ s.waited.started = s.started := by
  unfold St.waited
  split
  · exact ⟨rfl, rfl, rfl, rfl, rfl, rfl⟩
  · split <;> exact ⟨rfl, rfl, rfl, rfl, rfl, rfl⟩

theorem act_kind (s : St) (e : Ev) : (s.act e).kind = s.kind ∧ (s.act e).lim = s.lim := by
  cases e with
  | connect => exact ⟨rfl, rfl⟩
  | finish c o =>
    unfold St.act
    dsimp only
    split
    · exact ⟨(waited_fields _).2.1, (waited_fields _).2.2.1⟩
    · exact ⟨rfl, rfl⟩
  | turn order =>
    unfold St.act
    dsimp only
    split
    · split
      · exact ⟨(waited_fields _).2.1, (waited_fields _).2.2.1⟩
      · exact ⟨rfl, rfl⟩
    · split <;> exact ⟨rfl, rfl⟩

theorem step_kind (s : St) (e : Ev) : (s.step e).kind = s.kind ∧ (s.step e).lim = s.lim := by
  unfold St.step
  split
  · exact act_kind s e
  · exact ⟨rfl, rfl⟩

theorem run_kind (kind : Kind) (lim : Nat) (es : List Ev) : (run kind lim es).kind = kind ∧ (run kind lim es).lim = lim := by
  have key : ∀ (es : List Ev) (s : St), (es.foldl St.step s).kind = s.kind ∧ (es.foldl St.step s).lim = s.lim := by
    intro es
    induction es with
    | nil => intro s; exact ⟨rfl, rfl⟩
    | cons e es ih =>
      intro s
      have h1 := ih (s.step e)
      have h2 := step_kind s e
      exact ⟨h1.1.trans h2.1, h1.2.trans h2.2⟩
  exact key es _

/-- The phase after `wait_one` has returned, for the three ways it goes. -/
theorem waited_wait {s : St} {v : Group.Wait} (h : s.g.wait = some v) : s.waited = { s with ph := .one } := by
  unfold St.waited; rw [h]

theorem waited_err {s : St} {w x : Nat} {l : List (Nat × Group.Res)} (h : s.g.wait = none) (hl : s.g.log = (w, .err x) :: l) :
    s.waited = { s with ph := .failed x } := by
  unfold St.waited; rw [h, hl]

theorem waited_ok {s : St} {w : Nat} {l : List (Nat × Group.Res)} (h : s.g.wait = none) (hl : s.g.log = (w, .ok) :: l) :
    s.waited = { s with ph := s.kind.next } := by
  unfold St.waited; rw [h, hl]

theorem K.init (kind : Kind) (lim : Nat) : K [] [] { kind, lim } := by
  refine ⟨Group.Inv.init 0 1, rfl, fun _ => rfl, (fun _ h => by cases h), rfl, (fun h => by cases h), fun _ => rfl, ?_, (fun h => by cases h)⟩
  exact Nat.zero_le _

/-- The rest of the invariant after `wait_one` has returned. -/
theorem K.of_won {es : List Ev} {h : List Group.Ev} {s : St} {t : Group.St} {m : Group.Mem} {w : Nat}
    (hi : Inv h t) (hp : pushes h = s.started) (ho : ∀ c, Group.outcome c h = outcome c es)
    (hg : ∀ m ∈ t.gone, m.out.isSome = true) (hord : s.started ++ s.pend = List.range s.conns)
    (hw : t.wait = none) {l : List (Nat × Group.Res)} (hl : 0 < s.lim)
    (hc : (∃ x, m.out = some (.err x) ∧ t.log = (w, .err x) :: l ∧ t.members.length = s.lim) ∨
      (m.out = some .ok ∧ t.log = (w, .ok) :: l ∧ t.members.length + 1 = s.lim)) :
    K es h (St.waited { s with g := t }) := by
  rcases hc with ⟨x, -, h1, h2⟩ | ⟨-, h1, h2⟩
  · rw [waited_err (s := { s with g := t }) hw h1]
    exact ⟨hi, hp, ho, hg, hord, (fun h => by cases h), fun _ => hw, (by show t.members.length ≤ s.lim; rw [h2]; exact Nat.le_refl _), (fun h => by cases h)⟩
  · rw [waited_ok (s := { s with g := t }) hw h1]
    have hne : s.kind.next ≠ .one := by cases s.kind <;> simp [Kind.next]
    exact ⟨hi, hp, ho, hg, hord, fun h => absurd h hne, fun _ => hw, (by show t.members.length ≤ s.lim; omega), (fun _ => by
      show t.members.length < s.lim; omega)⟩

theorem K.act {es : List Ev} {h : List Group.Ev} {s : St} (k : K es h s) (hl : 0 < s.lim) (e : Ev) (he : s.ok e = true) :
    ∃ h', K (es ++ [e]) h' (s.act e) := by
  cases e with
  | connect =>
    refine ⟨h, k.inv, k.push, fun c => ?_, k.gone, ?_, k.one, k.idle, k.le, k.acc⟩
    · rw [k.out, outcome_append]; simp [outcome]
    · show s.started ++ (s.pend ++ [s.conns]) = List.range (s.conns + 1)
      rw [← List.append_assoc, k.ord, List.range_succ]
  | finish c o =>
    have hc : s.g.can (.complete c o) = true := he
    have hs := Group.step_eq k.inv.ub hc
    have hi := k.inv.step hc
    have hout : ∀ d, Group.outcome d (h ++ [.complete c o]) = outcome d (es ++ [.finish c o]) := by
      intro d
      rw [Group.outcome_append, outcome_append, k.out]
      rfl
    have hpush : pushes (h ++ [.complete c o]) = s.started := by
      rw [Group.pushes_append, k.push]; simp [pushes]
    refine ⟨h ++ [.complete c o], ?_⟩
    unfold St.act
    dsimp only
    by_cases hph : s.ph = .one
    · rw [if_pos hph]
      obtain ⟨w, hw, hlen⟩ := k.one hph
      obtain ⟨i, m, hm, -, hmo, hcm⟩ := complete_won hw hc
      have hst : s.g.step (.complete c o) = Group.St.wonBy { s.g with members := s.g.ended c o } w i := hs.trans hcm
      obtain ⟨h1, h2, h3⟩ := won (s := { s.g with members := s.g.ended c o }) (w := w) hm (by rw [hmo]; rfl)
      rw [hst] at hi ⊢
      refine K.of_won (m := m) (w := w) (l := s.g.log) hi hpush hout (fun m' hm' => ?_) k.ord h1 hl ?_
      · rcases h2 m' hm' with h | h
        · exact k.gone m' h
        · exact h
      · have hel : ({ s.g with members := s.g.ended c o } : Group.St).members.length = s.lim := by
          show (s.g.ended c o).length = _
          rw [ended_length, hlen]
        rw [hel] at h3
        exact h3
    · rw [if_neg hph]
      have hw := k.idle hph
      have hst : s.g.step (.complete c o) = { s.g with members := s.g.ended c o } := hs.trans (complete_idle hw c o)
      rw [hst] at hi ⊢
      refine ⟨hi, hpush, hout, k.gone, k.ord, fun h => absurd h hph, fun _ => hw, ?_, fun h => ?_⟩
      · show (s.g.ended c o).length ≤ s.lim
        rw [ended_length]; exact k.le
      · show (s.g.ended c o).length < s.lim
        rw [ended_length]; exact k.acc h
  | turn order =>
    have hout : ∀ c, outcome c (es ++ [.turn order]) = outcome c es := by
      intro d; rw [outcome_append]; simp [outcome]
    unfold St.act
    dsimp only
    cases hph : s.ph with
    | top =>
      dsimp only
      have hw := k.idle (by rw [hph]; simp)
      by_cases hf : s.full = true
      · rw [if_pos hf]
        have hlen := (full_iff k.le).1 hf
        have hc : s.g.can (.waitOne 0 order) = true := by
          have := he
          unfold St.ok at this
          rw [hph, hf] at this
          simpa using this
        have hs := Group.step_eq k.inv.ub hc
        have hi := k.inv.step hc
        have hpush : pushes (h ++ [.waitOne 0 order]) = s.started := by
          rw [Group.pushes_append, k.push]; simp [pushes]
        have hout' : ∀ d, Group.outcome d (h ++ [.waitOne 0 order]) = outcome d (es ++ [.turn order]) := by
          intro d
          rw [Group.outcome_append, k.out, hout]
          simp [Group.outcome]
        refine ⟨h ++ [.waitOne 0 order], ?_⟩
        have hne : s.g.members ≠ [] := by
          intro hc
          rw [hc] at hlen
          simp at hlen
          omega
        rcases waitOne_cases hw hne 0 order with ⟨h1, -⟩ | ⟨i, m, -, hm, hmo, h1⟩
        · have hst : s.g.step (.waitOne 0 order) = { s.g with wait := some (.one 0 s.g.members.length) } := hs.trans h1
          rw [waited_wait (s := { s with ph := .top, g := s.g.step (.waitOne 0 order) }) (v := .one 0 s.g.members.length)
            (by show (s.g.step _).wait = _; rw [hst])]
          rw [hst] at hi ⊢
          exact ⟨hi, hpush, hout', k.gone, k.ord, fun _ => ⟨0, rfl, hlen⟩, fun h => absurd rfl h, k.le, (fun h => by cases h)⟩
        · have hst : s.g.step (.waitOne 0 order) = Group.St.wonBy s.g 0 i := hs.trans h1
          obtain ⟨h2, h3, h4⟩ := won (w := 0) hm hmo
          rw [hst] at hi ⊢
          refine K.of_won (m := m) (w := 0) (l := s.g.log) hi hpush hout' (fun m' hm' => ?_) k.ord h2 hl ?_
          · rcases h3 m' hm' with h | h
            · exact k.gone m' h
            · exact h
          · rw [hlen] at h4
            exact h4
      · rw [if_neg hf]
        refine ⟨h, k.inv, k.push, (fun c => by rw [k.out, hout]), k.gone, k.ord, (fun h => by cases h), fun _ => hw, k.le, fun _ => ?_⟩
        have h1 := k.le
        have h2 : s.g.members.length ≠ s.lim := fun h => hf ((full_iff k.le).2 h)
        show s.g.members.length < s.lim
        omega
    | accept =>
      dsimp only
      have hw := k.idle (by rw [hph]; simp)
      have hacc := k.acc hph
      cases hp : s.pend with
      | nil =>
        have := he
        unfold St.ok at this
        rw [hph, hp] at this
        simp at this
      | cons c cs =>
        dsimp only
        have hnd : (s.started ++ c :: cs).Nodup := by
          rw [← hp, k.ord]; exact List.nodup_range
        have hcs : c ∉ s.started := fun hx => (List.nodup_append.1 hnd).2.2 c hx c (by simp) rfl
        have hfresh : c ∉ s.g.gone.map Group.Mem.id ++ s.g.members.map Group.Mem.id := by
          intro hx
          have := k.inv.perm.mem_iff.1 hx
          rw [k.push] at this
          exact hcs this
        have hc : s.g.can (.push c) = true := by
          simp only [List.mem_append, List.mem_map, not_or, not_exists, not_and] at hfresh
          simp only [Group.St.can, Bool.and_eq_true, Bool.not_eq_true', List.any_eq_false, beq_iff_eq]
          exact ⟨fun m hm => hfresh.2 m hm, fun m hm => hfresh.1 m hm⟩
        have hi := k.inv.step hc
        have hst : s.g.step (.push c) = { s.g with members := s.g.members ++ [{ id := c }] } := Group.step_eq k.inv.ub hc
        refine ⟨h ++ [.push c], ?_⟩
        rw [hst] at hi ⊢
        refine ⟨hi, ?_, fun d => ?_, k.gone, ?_, (fun h => by cases h), fun _ => hw, ?_, (fun h => by cases h)⟩
        · rw [Group.pushes_append, k.push]; simp [pushes]
        · rw [Group.outcome_append, k.out, hout]; simp [Group.outcome]
        · show (s.started ++ [c]) ++ cs = _
          rw [List.append_assoc, List.singleton_append, ← hp]; exact k.ord
        · show (s.g.members ++ [_]).length ≤ s.lim
          simp only [List.length_append, List.length_singleton]
          omega
    | one =>
      have := he
      unfold St.ok at this
      rw [hph] at this
      cases this
    | failed x =>
      have := he
      unfold St.ok at this
      rw [hph] at this
      cases this

theorem K.all {kind : Kind} {lim : Nat} (hl : 0 < lim) {es : List Ev} (hg : Legal { kind, lim } es) :
    ∃ h, K es h (run kind lim es) := by
  have key : ∀ l : List Ev, Legal { kind, lim } l.reverse → ∃ h, K l.reverse h (Limit.run kind lim l.reverse) := by
    intro l
    induction l with
    | nil => intro _; exact ⟨[], K.init kind lim⟩
    | cons e l ih =>
      intro hg
      rw [List.reverse_cons] at hg ⊢
      obtain ⟨h1, h2⟩ := legal_snoc hg
      obtain ⟨h, k⟩ := ih h1
      rw [run_snoc]
      have h2' : (Limit.run kind lim l.reverse).ok e = true := h2
      rw [show (Limit.run kind lim l.reverse).step e = (Limit.run kind lim l.reverse).act e by rw [St.step, if_pos h2']]
      exact k.act (by rw [(run_kind kind lim l.reverse).2]; exact hl) e h2'
  have := key es.reverse
  rw [List.reverse_reverse] at this
  exact this hg

/-- The sessions that run are the members that have not ended. -/
theorem K.running {kind : Kind} {lim : Nat} {es : List Ev} {h : List Group.Ev} (k : K es h (run kind lim es)) :
    (Limit.running kind lim es).Perm (((run kind lim es).g.members.filter fun m => m.out.isNone).map Group.Mem.id) := by
  unfold Limit.running
  rw [← k.push]
  refine (k.inv.perm.filter _).symm.trans ?_
  rw [List.filter_append]
  have h1 : ((Limit.run kind lim es).g.gone.map Group.Mem.id).filter (fun c => (outcome c es).isNone) = [] := by
    rw [List.filter_eq_nil_iff]
    intro c hc
    obtain ⟨m, hm, rfl⟩ := List.mem_map.1 hc
    rw [← k.out, ← k.inv.outG m hm]
    have := k.gone m hm
    cases hx : m.out
    · rw [hx] at this; cases this
    · simp
  rw [h1, List.nil_append, List.filter_map]
  have h2 : (Limit.run kind lim es).g.members.filter ((fun c => (outcome c es).isNone) ∘ Group.Mem.id) =
      (Limit.run kind lim es).g.members.filter fun m => m.out.isNone := by
    apply List.filter_congr
    intro m hm
    show (outcome m.id es).isNone = _
    rw [← k.out, ← k.inv.out m hm]
  rw [h2]

end Cobalt.Limit
