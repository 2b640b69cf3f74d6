import Verif.Obj.Model
/-!
# Properties of moving sockets and files
-/
namespace Cobalt.Obj

/-! ## Specification

An object is gone, or has the descriptor given to it or to the object it was moved from. -/

/-- `none`: gone. -/
abbrev Own := List (Option (Option Nat))

/-- The live object, with its descriptor. -/
def Own.live (w : Own) (i : Nat) : Option (Option Nat) := (w[i]?).join

def Own.step (w : Own) : Ev → Own × Out
  | .make _ d => (w ++ [some d], .none_)
  | .move i =>
    match w.live i with
    | some d => (w.set i (some none) ++ [some d], .none_)
    | none => (w, .none_)
  | .destroy i => (w.set i none, .none_)
  | .transfer i =>
    match w.live i with
    | some d => (w, .on d)
    | none => (w, .none_)
  | .query i =>
    match w.live i with
    | some d => (w, .on d)
    | none => (w, .none_)
  | .close i =>
    match w.live i with
    | some d => (w.set i (some none), .on d)
    | none => (w, .none_)
  | .open_ i x =>
    match w.live i with
    | some d => (w.set i (some (some x)), .on d)
    | none => (w, .none_)

def Own.run (w : Own) : List Ev → List (Ev × Out)
  | [] => []
  | e :: es => (e, (w.step e).2) :: (w.step e).1.run es

/-- **C66**, in full: every use of an object touches its own descriptor. -/
def C66 : Prop := ∀ es, St.run {} es = Own.run [] es

/-- A file which was moved and whose source is gone: undefined behaviour. -/
theorem C66_violated : ¬ C66 := by
  intro h
  have := h [.make .file (some 7), .move 0, .destroy 0, .query 1]
  exact absurd this (by decide)

/-- Closing a moved file leaves it open. -/
theorem C66_close_violated :
    St.run {} [.make .file (some 7), .move 0, .close 1, .transfer 1] =
      [(.make .file (some 7), .none_), (.move 0, .none_), (.close 1, .on none),
       (.transfer 1, .on (some 7))] := by decide

/-- A moved `ssl::stream`, whose source has been opened again: the wrong socket is asked. -/
theorem C66_ssl_violated :
    St.run {} [.make .ssl (some 7), .move 0, .open_ 0 8, .query 1] =
      [(.make .ssl (some 7), .none_), (.move 0, .none_), (.open_ 0 8, .on none),
       (.query 1, .on (some 8))] := by decide

/-- What the specification makes of the objects of the model. -/
def St.own (s : St) : Own := s.objs.map (fun o => if o.alive then some o.desc else none)

theorem own_live {s : St} {i : Nat} :
    s.own.live i = (s.objs[i]?).bind (fun o => if o.alive then some o.desc else none) := by
  simp only [Own.live, St.own, List.getElem?_map]
  cases s.objs[i]? <;> rfl

/-- The number of the object an event uses through the reference. -/
def Ev.viaRef : Ev → Option Nat
  | .query i => some i
  | .close i => some i
  | .open_ i _ => some i
  | _ => none

/-- No such use of a live object whose reference is to another. -/
def Direct (s : St) (e : Ev) : Prop :=
  ∀ i, e.viaRef = some i → ∀ o, s.objs[i]? = some o → o.alive = true → o.ref = i

theorem set_own {s : St} {i : Nat} {o : Obj} (ho : s.objs[i]? = some o) (ha : o.alive = true)
    (d : Option Nat) : (s.setDesc i d).own = s.own.set i (some d) := by
  simp only [St.own, St.setDesc]
  apply List.ext_getElem?
  intro j
  simp only [List.getElem?_map, List.getElem?_modify, List.getElem?_set, List.length_map]
  by_cases hj : i = j
  · subst hj
    have hl : i < s.objs.length := by
      rw [List.getElem?_eq_some_iff] at ho
      exact ho.1
    simp only [ho, if_true, Option.map_eq_map, Option.map_some, ha, hl]
  · simp only [hj, if_false]
    cases s.objs[j]? <;> rfl

theorem step_own {s : St} {e : Ev} (h : Direct s e) :
    (s.step e).2 = (s.own.step e).2 ∧ (s.step e).1.own = (s.own.step e).1 := by
  cases e with
  | make k d => simp [St.step, Own.step, St.own]
  | move i =>
    simp only [St.step, Own.step, own_live]
    cases ho : s.objs[i]? with
    | none => exact ⟨rfl, rfl⟩
    | some o =>
      simp only [Option.bind_some]
      cases ha : o.alive with
      | false => exact ⟨rfl, rfl⟩
      | true =>
        refine ⟨rfl, ?_⟩
        simp only [if_true]
        rw [← set_own ho ha none]
        simp [St.own]
  | destroy i =>
    refine ⟨rfl, ?_⟩
    simp only [St.step, Own.step, St.own]
    apply List.ext_getElem?
    intro j
    simp only [List.getElem?_map, List.getElem?_modify, List.getElem?_set, List.length_map]
    by_cases hj : i = j
    · subst hj
      by_cases hl : i < s.objs.length
      · simp [hl]
      · simp [List.getElem?_eq_none (Nat.le_of_not_lt hl), hl]
    · simp only [hj, if_false]
      cases s.objs[j]? <;> rfl
  | transfer i =>
    simp only [St.step, Own.step, own_live]
    cases ho : s.objs[i]? with
    | none => exact ⟨rfl, rfl⟩
    | some o => simp only [Option.bind_some]; cases ha : o.alive <;> exact ⟨rfl, rfl⟩
  | query i =>
    simp only [St.step, Own.step, own_live]
    cases ho : s.objs[i]? with
    | none => exact ⟨rfl, rfl⟩
    | some o =>
      simp only [Option.bind_some]
      cases ha : o.alive
      · simp
      · simp [St.target, h i rfl o ho ha, ho, Option.filter, ha]
  | close i =>
    simp only [St.step, Own.step, own_live]
    cases ho : s.objs[i]? with
    | none => exact ⟨rfl, rfl⟩
    | some o =>
      simp only [Option.bind_some]
      cases ha : o.alive
      · simp
      · simp [St.target, h i rfl o ho ha, ho, Option.filter, ha, set_own ho ha]
  | open_ i d =>
    simp only [St.step, Own.step, own_live]
    cases ho : s.objs[i]? with
    | none => exact ⟨rfl, rfl⟩
    | some o =>
      simp only [Option.bind_some]
      cases ha : o.alive
      · simp
      · simp [St.target, h i rfl o ho ha, ho, Option.filter, ha, set_own ho ha]

/-- Every event of the history is direct. -/
def AllDirect (s : St) : List Ev → Prop
  | [] => True
  | e :: es => Direct s e ∧ AllDirect (s.step e).1 es

theorem run_own {s : St} {es : List Ev} (h : AllDirect s es) : s.run es = s.own.run es := by
  induction es generalizing s with
  | nil => rfl
  | cons e es ih =>
    have := step_own h.1
    simp only [St.run, Own.run]
    rw [this.1, ih h.2, this.2]

/-- What holds for all classes: a history is right if no object that refers to another is used
through the reference. -/
theorem C66_partial (es : List Ev) (h : AllDirect {} es) : St.run {} es = Own.run [] es :=
  run_own h

/-- Every reference is to the object itself or, after a move of a file or an `ssl::stream`, to
an earlier one. -/
def Refs (s : St) : Prop :=
  ∀ (i : Nat) (o : Obj), s.objs[i]? = some o → o.ref ≤ i ∧ (o.kind.rebinds = true → o.ref = i)

theorem Refs.setDesc {s : St} (h : Refs s) (j : Nat) (d : Option Nat) : Refs (s.setDesc j d) := by
  intro i o ho
  simp only [St.setDesc, List.getElem?_modify] at ho
  cases hs : s.objs[i]? with
  | none => simp [hs] at ho
  | some o' =>
    have := h i o' hs
    simp only [hs, Option.map_eq_map, Option.map_some, Option.some.injEq] at ho
    subst ho
    split <;> exact this

theorem Refs.snoc {s : St} (h : Refs s) (o : Obj)
    (ho : o.ref ≤ s.objs.length ∧ (o.kind.rebinds = true → o.ref = s.objs.length)) :
    Refs { objs := s.objs ++ [o] } := by
  intro i o' ho'
  by_cases hl : i < s.objs.length
  · rw [List.getElem?_append_left hl] at ho'
    exact h i o' ho'
  · have hge : s.objs.length ≤ i := by omega
    rw [List.getElem?_append_right hge] at ho'
    have hi : i = s.objs.length := by
      have := (List.getElem?_eq_some_iff.mp ho').1
      simp at this
      omega
    subst hi
    simp at ho'
    subst ho'
    exact ho

theorem Refs.step {s : St} (h : Refs s) (e : Ev) : Refs (s.step e).1 := by
  cases e with
  | make k d => exact h.snoc _ ⟨Nat.le_refl _, fun _ => rfl⟩
  | move i =>
    simp only [St.step]
    split
    · rename_i o ho
      split
      · have hr := h i o ho
        have hl : i < s.objs.length := (List.getElem?_eq_some_iff.mp ho).1
        refine (h.setDesc i none).snoc _ ?_
        simp only [St.setDesc, List.length_modify]
        refine ⟨?_, fun hk => by simp [hk]⟩
        split <;> omega
      · exact h
    · exact h
  | destroy j =>
    intro i o ho
    simp only [St.step, List.getElem?_modify] at ho
    cases hs : s.objs[i]? with
    | none => simp [hs] at ho
    | some o' =>
      have := h i o' hs
      simp only [hs, Option.map_eq_map, Option.map_some, Option.some.injEq] at ho
      subst ho
      split <;> exact this
  | transfer i => simp only [St.step]; repeat' split
                  all_goals exact h
  | query i => simp only [St.step]; repeat' split
               all_goals exact h
  | close i => simp only [St.step]; repeat' split
               all_goals first | exact h | exact h.setDesc _ _
  | open_ i d => simp only [St.step]; repeat' split
                 all_goals first | exact h | exact h.setDesc _ _

/-- Only sockets, pipes and files without native files are made. -/
def OnlyRebinding (es : List Ev) : Prop :=
  ∀ k d, .make k d ∈ es → k = .socket ∨ k = .plain

/-- All objects bind their reference anew. -/
def AllRebind (s : St) : Prop := ∀ o ∈ s.objs, o.kind.rebinds = true

theorem AllRebind.setDesc {s : St} (h : AllRebind s) (i : Nat) (d : Option Nat) :
    AllRebind (s.setDesc i d) := by
  intro o ho
  obtain ⟨j, hj⟩ := List.mem_iff_getElem?.mp ho
  simp only [St.setDesc, List.getElem?_modify] at hj
  cases hs : s.objs[j]? with
  | none => simp [hs] at hj
  | some o' =>
    have := h o' (List.mem_of_getElem? hs)
    simp only [hs, Option.map_eq_map, Option.map_some, Option.some.injEq] at hj
    subst hj
    split <;> exact this

theorem AllRebind.step {s : St} (h : AllRebind s) {e : Ev}
    (he : ∀ k d, e = .make k d → k.rebinds = true) : AllRebind (s.step e).1 := by
  cases e with
  | make k d =>
    intro o ho
    simp only [St.step, List.mem_append, List.mem_singleton] at ho
    rcases ho with ho | ho
    · exact h o ho
    · subst ho; exact he k d rfl
  | move i =>
    simp only [St.step]
    split
    · rename_i o ho
      split
      · intro o' ho'
        simp only [List.mem_append, List.mem_singleton] at ho'
        rcases ho' with ho' | ho'
        · exact h.setDesc i none o' ho'
        · subst ho'; exact h o (List.mem_of_getElem? ho)
      · exact h
    · exact h
  | destroy i =>
    intro o ho
    obtain ⟨j, hj⟩ := List.mem_iff_getElem?.mp ho
    simp only [St.step, List.getElem?_modify] at hj
    cases hs : s.objs[j]? with
    | none => simp [hs] at hj
    | some o' =>
      have := h o' (List.mem_of_getElem? hs)
      simp only [hs, Option.map_eq_map, Option.map_some, Option.some.injEq] at hj
      subst hj
      split <;> exact this
  | transfer i => simp only [St.step]; repeat' split
                  all_goals exact h
  | query i => simp only [St.step]; repeat' split
               all_goals exact h
  | close i => simp only [St.step]; repeat' split
               all_goals first | exact h | exact h.setDesc _ _
  | open_ i d => simp only [St.step]; repeat' split
                 all_goals first | exact h | exact h.setDesc _ _

/-- In full for sockets, pipes and files without native files. -/
theorem C66_rebinding (es : List Ev) (h : OnlyRebinding es) : St.run {} es = Own.run [] es := by
  have key : ∀ (es : List Ev) (s : St), Refs s → AllRebind s → OnlyRebinding es →
      AllDirect s es := by
    intro es
    induction es with
    | nil => intros; trivial
    | cons e es ih =>
      intro s hr ha ho
      refine ⟨?_, ih _ (hr.step e) (ha.step ?_) fun k d hm => ho k d (List.mem_cons_of_mem _ hm)⟩
      · intro i _ o hi _
        exact (hr i o hi).2 (ha o (List.mem_of_getElem? hi))
      · intro k d hk
        rcases ho k d (hk ▸ List.mem_cons_self ..) with h | h <;> rw [h] <;> rfl
  exact C66_partial es (key es {} (by intro i o h; simp at h) (by intro o h; cases h) h)

example : OnlyRebinding [.make .socket (some 3), .move 0, .destroy 0, .query 1, .close 1] ∧
    St.run {} [.make .socket (some 3), .move 0, .destroy 0, .query 1, .close 1] =
      [(.make .socket (some 3), .none_), (.move 0, .none_), (.destroy 0, .none_),
       (.query 1, .on (some 3)), (.close 1, .on (some 3))] := by
  refine ⟨?_, by decide⟩
  intro k d hm
  simp at hm
  exact .inl hm.1

example : AllDirect {} [.make .file (some 3), .query 0, .move 0, .destroy 0, .transfer 1] := by
  simp [AllDirect, Direct, Ev.viaRef, St.step]

/-! ## Exactly when -/

/-- Every live object refers to itself. -/
def Selfish (s : St) : Prop := ∀ (i : Nat) (o : Obj), s.objs[i]? = some o → o.alive = true → o.ref = i

theorem Selfish.step {s : St} (h : Selfish s) {e : Ev} (he : ∀ i, e ≠ .move i) : Selfish (s.step e).1 := by
  have hs : ∀ j d, Selfish (s.setDesc j d) := by
    intro j d i o ho ha
    simp only [St.setDesc, List.getElem?_modify] at ho
    cases hs : s.objs[i]? with
    | none => simp [hs] at ho
    | some o' =>
      have := h i o' hs
      simp only [hs, Option.map_eq_map, Option.map_some, Option.some.injEq] at ho
      subst ho
      split at ha <;> split <;> simp_all
  cases e with
  | make k d =>
    intro i o ho _
    simp only [St.step] at ho
    rcases Nat.lt_trichotomy i s.objs.length with hl | hl | hl
    · rw [List.getElem?_append_left hl] at ho
      exact h i o ho ‹_›
    · subst hl
      simp at ho
      subst ho; rfl
    · rw [List.getElem?_eq_none (by simp; omega)] at ho; cases ho
  | move i => exact absurd rfl (he i)
  | destroy j =>
    intro i o ho ha
    simp only [St.step, List.getElem?_modify] at ho
    cases hs : s.objs[i]? with
    | none => simp [hs] at ho
    | some o' =>
      have := h i o' hs
      simp only [hs, Option.map_eq_map, Option.map_some, Option.some.injEq] at ho
      subst ho
      split at ha <;> simp_all
  | transfer i => simp only [St.step]; repeat' split
                  all_goals exact h
  | query i => simp only [St.step]; repeat' split
               all_goals exact h
  | close i => simp only [St.step]; repeat' split
               all_goals first | exact h | exact hs _ _
  | open_ i d => simp only [St.step]; repeat' split
                 all_goals first | exact h | exact hs _ _

/-- In any state, what is done from there on without further moves touches the right
descriptors, whatever it is, exactly if every live object refers to itself: a reference to
another object always shows. -/
theorem C66_exact (s : St) :
    (∀ es : List Ev, (∀ i, .move i ∉ es) → s.run es = s.own.run es) ↔
    ∀ (i : Nat) (o : Obj), s.objs[i]? = some o → o.alive = true → o.ref = i := by
  constructor
  · intro h i o ho ha
    apply Classical.byContradiction
    intro hne
    -- a descriptor that the object does not have
    obtain ⟨d, hd⟩ : ∃ d : Nat, o.desc ≠ some d := by
      cases o.desc with
      | none => exact ⟨0, by simp⟩
      | some x => exact ⟨x + 1, by simp⟩
    have hq := h [.open_ i d, .transfer i] (by simp)
    have hl : s.own.live i = some o.desc := by rw [own_live, ho]; simp [ha]
    have hlen : i < s.own.length := by
      have := (List.getElem?_eq_some_iff.mp ho).1
      simpa [St.own] using this
    cases ht : s.target o with
    | none => simp [St.run, Own.run, St.step, Own.step, ho, ha, hl, ht] at hq
    | some t =>
      have h2 : (s.setDesc o.ref (some d)).objs[i]? = some o := by
        simp [St.setDesc, List.getElem?_modify, hne, ho]
      have h3 : Own.live (s.own.set i (some (some d))) i = some (some d) := by
        simp [Own.live, hlen]
      simp [St.run, Own.run, St.step, Own.step, ho, ha, hl, ht, h2, h3] at hq
      exact hd hq.2
  · intro h es hm
    refine run_own ?_
    have h : Selfish s := h
    induction es generalizing s with
    | nil => trivial
    | cons e es ih =>
      refine ⟨fun i _ o ho ha => h i o ho ha, ih _
        (h.step fun i hi => hm i (hi ▸ List.mem_cons_self ..))
        (fun i hi => hm i (List.mem_cons_of_mem _ hi)) (h.step fun i hi => hm i (hi ▸ List.mem_cons_self ..))⟩

/-- A file, moved, its source gone: the reference is to the source. -/
example : ((({} : St).step (.make .file (some 3))).1.step (.move 0)).1.objs[1]? =
    some ⟨true, .file, some 3, 0⟩ := by decide

/-- The history of states. -/
def St.after (s : St) (es : List Ev) : St := es.foldl (fun s e => (s.step e).1) s

theorem Refs.after {s : St} (h : Refs s) (es : List Ev) : Refs (s.after es) := by
  induction es generalizing s with
  | nil => exact h
  | cons e es ih => exact ih (h.step e)

/-- After any history: a file or `ssl::stream` made by a move refers to an earlier object, so
that every use of it through the reference touches the descriptor of that, or is undefined
behaviour when that is gone. -/
theorem C66_moved (es : List Ev) (i : Nat) (o : Obj) (s : St) (hs : s = St.after {} es)
    (ho : s.objs[i]? = some o) (ha : o.alive = true) (hk : o.kind = .file ∨ o.kind = .ssl) :
    let n := s.objs.length
    let s' := (s.step (.move i)).1
    ∃ r, r < n ∧
      (s'.step (.query n)).2 =
        match s'.objs[r]? with
        | some t => if t.alive then .on t.desc else .ub
        | none => .ub := by
  intro n s'
  have hrefs : Refs s := by
    rw [hs]; exact Refs.after (by intro i o h; simp at h) es
  have hl : i < s.objs.length := (List.getElem?_eq_some_iff.mp ho).1
  have hr := (hrefs i o ho).1
  refine ⟨o.ref, by omega, ?_⟩
  have e1 : s' = { objs := (s.setDesc i none).objs ++ [⟨true, o.kind, o.desc, o.ref⟩] } := by
    have hk' : o.kind.rebinds = false := by rcases hk with h | h <;> rw [h] <;> rfl
    simp only [s', St.step, ho, ha, if_true, hk']
    rfl
  have hn : s'.objs[n]? = some ⟨true, o.kind, o.desc, o.ref⟩ := by
    rw [e1]
    simp [n, St.setDesc]
  simp only [St.step, hn, St.target, if_true]
  cases s'.objs[o.ref]? with
  | none => rfl
  | some t => cases hta : t.alive <;> simp [Option.filter, hta]

example : ∃ o, (St.after {} [.make .ssl (some 4)]).objs[0]? = some o ∧ o.alive = true ∧
    (o.kind = .file ∨ o.kind = .ssl) := ⟨_, rfl, rfl, .inr rfl⟩

end Cobalt.Obj
