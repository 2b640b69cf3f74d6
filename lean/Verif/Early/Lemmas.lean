import Verif.Early.Spec
/-!
# Lemmas for C105
-/
namespace Cobalt.Early

@[simp] theorem set_same {α : Type} (f : Nat → α) (i : Nat) (a : α) : set f i a i = a := by simp [set]
theorem set_ne {α : Type} (f : Nat → α) {i j : Nat} (a : α) (h : j ≠ i) : set f i a j = f j := by simp [set, h]

/-- The operations of `l` that read from source `k`. -/
def ofk (of : Nat → Nat) (l : List Nat) (k : Nat) : List Nat := l.filter fun i => of i == k

theorem ofk_cons_same {of : Nat → Nat} {l : List Nat} {i : Nat} : ofk of (i :: l) (of i) = i :: ofk of l (of i) := by
  simp [ofk]

theorem ofk_cons_ne {of : Nat → Nat} {l : List Nat} {i k : Nat} (h : of i ≠ k) : ofk of (i :: l) k = ofk of l k := by
  simp [ofk, h]

theorem mem_ofk {of : Nat → Nat} {l : List Nat} {i k : Nat} : i ∈ ofk of l k ↔ i ∈ l ∧ of i = k := by simp [ofk]

@[simp] theorem ready_of (s : St) (i : Nat) : (s.ready i).of = s.of := by unfold St.ready; split <;> rfl
@[simp] theorem ready_out (s : St) (i : Nat) : (s.ready i).out = s.out := by unfold St.ready; split <;> rfl
@[simp] theorem ready_queue (s : St) (i : Nat) : (s.ready i).queue = s.queue := by unfold St.ready; split <;> rfl

theorem ready_src (s : St) (i k : Nat) : (s.ready i).src k = if s.of i = k then (s.src k).tail else s.src k := by
  unfold St.ready
  split
  · rename_i h
    split
    · rename_i hk
      subst hk
      rw [h]; rfl
    · rfl
  · rename_i v vs h
    split
    · rename_i hk
      subst hk
      rw [h]
      simp
    · rename_i hk
      exact set_ne _ _ (fun h => hk h.symm)

theorem ready_res (s : St) (i j : Nat) :
    (s.ready i).res j = if j = i then ((s.src (s.of i)).head?.or (s.res i)) else s.res j := by
  unfold St.ready
  split
  · rename_i h
    rw [h]
    split
    · rename_i hj; subst hj; rfl
    · rfl
  · rename_i v vs h
    rw [h]
    split
    · rename_i hj; subst hj; simp
    · rename_i hj; exact set_ne _ _ hj

@[simp] theorem child_of (s : St) (i : Nat) : (s.child i).of = s.of := by
  unfold St.child
  dsimp only
  split <;> simp

theorem child_src (s : St) (i k : Nat) : (s.child i).src k = if s.of i = k then (s.src k).tail else s.src k := by
  unfold St.child
  dsimp only
  split <;> exact ready_src s i k

theorem child_res (s : St) (i j : Nat) :
    (s.child i).res j = if j = i then ((s.src (s.of i)).head?.or (s.res i)) else s.res j := by
  unfold St.child
  dsimp only
  split <;> exact ready_res s i j

theorem child_out (s : St) (i j : Nat) :
    (s.child i).out j = if j = i then ((s.src (s.of i)).head?.or (s.res i)).or (s.out i) else s.out j := by
  have h := ready_res s i i
  rw [if_pos rfl] at h
  unfold St.child
  dsimp only
  split
  · rename_i v hv
    rw [hv] at h
    rw [← h]
    dsimp only
    split
    · rename_i hj; subst hj; simp
    · rename_i hj; rw [set_ne _ _ hj, ready_out]
  · rename_i hv
    rw [hv] at h
    rw [← h]
    dsimp only
    split
    · rename_i hj; subst hj; simp
    · simp

theorem child_queue (s : St) (i : Nat) :
    (s.child i).queue = if ((s.src (s.of i)).head?.or (s.res i)).isSome then s.queue else s.queue ++ [i] := by
  have h := ready_res s i i
  rw [if_pos rfl] at h
  unfold St.child
  dsimp only
  split
  · rename_i v hv
    rw [hv] at h
    simp [← h]
  · rename_i hv
    rw [hv] at h
    simp [← h]

/-! ## Runs of `ready` and of children -/

theorem readies_of (l : List Nat) (s : St) : (l.foldl St.ready s).of = s.of ∧ (l.foldl St.ready s).out = s.out ∧
    (l.foldl St.ready s).queue = s.queue := by
  induction l generalizing s with
  | nil => exact ⟨rfl, rfl, rfl⟩
  | cons i l ih =>
    have := ih (s.ready i)
    simpa using this

theorem readies_src (l : List Nat) (s : St) (k : Nat) :
    (l.foldl St.ready s).src k = (s.src k).drop (ofk s.of l k).length := by
  induction l generalizing s with
  | nil => rfl
  | cons i l ih =>
    rw [List.foldl_cons, ih, ready_of, ready_src]
    by_cases h : s.of i = k
    · subst h
      rw [if_pos rfl, ofk_cons_same, List.length_cons, ← List.drop_one, List.drop_drop, Nat.add_comm]
    · rw [if_neg h, ofk_cons_ne h]

/-- What the list `l` of operations gets, one after the other, from `q`; `old`: what they have. -/
def deal (old : Nat → Option Nat) : List Nat → List Nat → List (Option Nat)
  | [], _ => []
  | i :: l, [] => old i :: deal old l []
  | _ :: l, v :: q => some v :: deal old l q

theorem deal_congr {old old' : Nat → Option Nat} : ∀ (l q : List Nat), (∀ i ∈ l, old i = old' i) → deal old l q = deal old' l q
  | [], _, _ => rfl
  | i :: l, [], h => by
    rw [deal, deal, h i (by simp), deal_congr l [] fun j hj => h j (by simp [hj])]
  | i :: l, v :: q, h => by
    rw [deal, deal, deal_congr l q fun j hj => h j (by simp [hj])]

theorem readies_notin (l : List Nat) (s : St) (j : Nat) (hj : j ∉ l) : (l.foldl St.ready s).res j = s.res j := by
  induction l generalizing s with
  | nil => rfl
  | cons i l ih =>
    simp only [List.mem_cons, not_or] at hj
    rw [List.foldl_cons, ih _ hj.2, ready_res, if_neg hj.1]

theorem readies_res (l : List Nat) (hn : l.Nodup) (s : St) (k : Nat) :
    (ofk s.of l k).map (l.foldl St.ready s).res = deal s.res (ofk s.of l k) (s.src k) := by
  induction l generalizing s with
  | nil => rfl
  | cons i l ih =>
    rw [List.nodup_cons] at hn
    have h1 := ih hn.2 (s.ready i)
    rw [ready_of] at h1
    rw [List.foldl_cons]
    by_cases h : s.of i = k
    · subst h
      rw [ofk_cons_same, List.map_cons, h1, readies_notin l _ i hn.1, ready_res, if_pos rfl, ready_src, if_pos rfl]
      have hc : ∀ q, deal (s.ready i).res (ofk s.of l (s.of i)) q = deal s.res (ofk s.of l (s.of i)) q := fun q =>
        deal_congr _ _ fun j hj => by
          rw [ready_res, if_neg]
          rintro rfl
          exact hn.1 (mem_ofk.1 hj).1
      rw [hc]
      cases s.src (s.of i) <;> simp [deal]
    · rw [ofk_cons_ne h, h1, ready_src, if_neg h]
      exact deal_congr _ _ fun j hj => by
        rw [ready_res, if_neg]
        rintro rfl
        exact hn.1 (mem_ofk.1 hj).1

theorem children_of (l : List Nat) (s : St) : (l.foldl St.child s).of = s.of := by
  induction l generalizing s with
  | nil => rfl
  | cons i l ih => simpa using ih (s.child i)

theorem children_src (l : List Nat) (s : St) (k : Nat) :
    (l.foldl St.child s).src k = (s.src k).drop (ofk s.of l k).length := by
  induction l generalizing s with
  | nil => rfl
  | cons i l ih =>
    rw [List.foldl_cons, ih, child_of, child_src]
    by_cases h : s.of i = k
    · subst h
      rw [if_pos rfl, ofk_cons_same, List.length_cons, ← List.drop_one, List.drop_drop, Nat.add_comm]
    · rw [if_neg h, ofk_cons_ne h]

theorem children_notin (l : List Nat) (s : St) (j : Nat) (hj : j ∉ l) : (l.foldl St.child s).out j = s.out j := by
  induction l generalizing s with
  | nil => rfl
  | cons i l ih =>
    simp only [List.mem_cons, not_or] at hj
    rw [List.foldl_cons, ih _ hj.2, child_out, if_neg hj.1]

theorem children_out (l : List Nat) (hn : l.Nodup) (s : St) (ho : ∀ i ∈ l, s.out i = none) (k : Nat) :
    (ofk s.of l k).map (l.foldl St.child s).out = deal s.res (ofk s.of l k) (s.src k) := by
  induction l generalizing s with
  | nil => rfl
  | cons i l ih =>
    rw [List.nodup_cons] at hn
    have hne : ∀ j ∈ l, j ≠ i := fun j hj h => hn.1 (h ▸ hj)
    have h1 := ih hn.2 (s.child i) (fun j hj => by rw [child_out, if_neg (hne j hj)]; exact ho j (by simp [hj]))
    rw [child_of] at h1
    rw [List.foldl_cons]
    have hc : ∀ k q, deal (s.child i).res (ofk s.of l k) q = deal s.res (ofk s.of l k) q := fun k q =>
      deal_congr _ _ fun j hj => by rw [child_res, if_neg (hne j (mem_ofk.1 hj).1)]
    by_cases h : s.of i = k
    · subst h
      rw [ofk_cons_same, List.map_cons, h1, children_notin l _ i hn.1, child_out, if_pos rfl, child_src, if_pos rfl, hc,
        ho i (by simp)]
      cases s.src (s.of i) <;> simp [deal]
    · rw [ofk_cons_ne h, h1, child_src, if_neg h, hc]

/-- Who was initiated has returned nothing. -/
theorem children_queue (l : List Nat) (hn : l.Nodup) (s : St) (ho : ∀ i ∈ l, s.out i = none)
    (hq : s.queue.Nodup ∧ ∀ i ∈ s.queue, i ∉ l ∧ s.out i = none) :
    (l.foldl St.child s).queue.Nodup ∧
    ∀ i ∈ (l.foldl St.child s).queue, (i ∈ s.queue ∨ i ∈ l) ∧ (l.foldl St.child s).out i = none := by
  induction l generalizing s with
  | nil => exact ⟨hq.1, fun i hi => ⟨.inl hi, (hq.2 i hi).2⟩⟩
  | cons j l ih =>
    rw [List.nodup_cons] at hn
    have hne : ∀ i ∈ l, i ≠ j := fun i hi h => hn.1 (h ▸ hi)
    have hjq : j ∉ s.queue := fun h => (hq.2 j h).1 (by simp)
    have hq' : (s.child j).queue.Nodup ∧ ∀ i ∈ (s.child j).queue, i ∉ l ∧ (s.child j).out i = none := by
      rw [child_queue]
      split
      · refine ⟨hq.1, fun i hi => ⟨fun h => (hq.2 i hi).1 (by simp [h]), ?_⟩⟩
        rw [child_out, if_neg (fun h : i = j => hjq (h ▸ hi))]
        exact (hq.2 i hi).2
      · rename_i hx
        refine ⟨?_, fun i hi => ?_⟩
        · rw [List.nodup_append]
          exact ⟨hq.1, by simp, fun a ha b hb => by
            simp only [List.mem_singleton] at hb
            subst hb
            exact fun h => hjq (h ▸ ha)⟩
        · rcases List.mem_append.1 hi with hi | hi
          · refine ⟨fun h => (hq.2 i hi).1 (by simp [h]), ?_⟩
            rw [child_out, if_neg (fun h : i = j => hjq (h ▸ hi))]
            exact (hq.2 i hi).2
          · simp only [List.mem_singleton] at hi
            subst hi
            refine ⟨hn.1, ?_⟩
            rw [child_out, if_pos rfl, ho i (by simp)]
            simpa using hx
    obtain ⟨h1, h2⟩ := ih hn.2 (s.child j) (fun i hi => by rw [child_out, if_neg (hne i hi)]; exact ho i (by simp [hi])) hq'
    rw [List.foldl_cons]
    refine ⟨h1, fun i hi => ⟨?_, (h2 i hi).2⟩⟩
    rcases (h2 i hi).1 with h | h
    · rw [child_queue] at h
      split at h
      · exact .inl h
      · rcases List.mem_append.1 h with h | h
        · exact .inl h
        · simp only [List.mem_singleton] at h
          exact .inr (by simp [h])
    · exact .inr (by simp [h])

/-! ## What is returned -/

theorem deal_none (l q : List Nat) : (deal (fun _ => none) l q).filterMap id = q.take l.length := by
  induction l generalizing q with
  | nil => simp [deal]
  | cons i l ih =>
    cases q with
    | nil => simpa [deal] using ih []
    | cons v q => simp [deal, ih]

/-- Operations that got something from `p` and then again from `q`. -/
theorem deal_deal (l : List Nat) : ∀ (old : Nat → Option Nat) (p q : List Nat), l.map old = deal (fun _ => none) l p →
    (deal old l q).filterMap id = q.take l.length ++ (p.take l.length).drop q.length := by
  induction l with
  | nil => intro old p q _; simp [deal]
  | cons i l ih =>
    intro old p q h
    cases p with
    | nil =>
      simp only [deal, List.map_cons, List.cons.injEq] at h
      cases q with
      | nil =>
        have := ih old [] [] h.2
        simp only [deal, h.1, List.filterMap_cons, id] at this ⊢
        simpa using this
      | cons w q =>
        have := ih old [] q h.2
        simp only [deal, List.filterMap_cons, id]
        rw [this]
        simp
    | cons v p =>
      simp only [deal, List.map_cons, List.cons.injEq] at h
      cases q with
      | nil =>
        have := ih old p [] h.2
        simp only [deal, h.1, List.filterMap_cons, id] at this ⊢
        rw [this]
        simp
      | cons w q =>
        have := ih old p q h.2
        simp only [deal, List.filterMap_cons, id]
        rw [this]
        simp

theorem filterMap_map (l : List Nat) (f : Nat → Option Nat) : l.filterMap f = (l.map f).filterMap id := by
  induction l with
  | nil => rfl
  | cons i l ih =>
    simp only [List.filterMap_cons, List.map_cons, id]
    rw [ih]

theorem have_eq (s : St) (l : List Nat) (k : Nat) : s.have l k = ((ofk s.of l k).map s.out).filterMap id ++ s.src k := by
  unfold St.have
  rw [filterMap_map]
  rfl

theorem each_have (src : Nat → List Nat) (of : Nat → Nat) (l : List Nat) (hn : l.Nodup) (k : Nat) :
    (St.await { src, of } l .each).have l k = src k := by
  rw [have_eq, St.await, children_of, children_src, children_out l hn _ (fun _ _ => rfl)]
  show (deal (fun _ => none) _ _).filterMap id ++ _ = _
  rw [deal_none, List.take_append_drop]

theorem range_have (src : Nat → List Nat) (of : Nat → Nat) (l : List Nat) (hn : l.Nodup) (k : Nat) :
    (St.await { src, of } l .range).have l k =
      ((src k).drop (readers of l k)).take (readers of l k) ++
      ((src k).take (readers of l k)).drop ((src k).length - readers of l k) ++
      (src k).drop (2 * readers of l k) := by
  have h1 := readies_of l { src, of }
  have hr : readers of l k = (ofk of l k).length := rfl
  rw [have_eq, St.await, children_of, children_src, children_out l hn _ (by rw [h1.2.1]; exact fun _ _ => rfl), h1.1,
    readies_src]
  show (deal _ (ofk of l k) ((src k).drop (ofk of l k).length)).filterMap id ++
    ((src k).drop (ofk of l k).length).drop (ofk of l k).length = _
  rw [deal_deal (ofk of l k) _ (src k) _ (readies_res l hn { src, of } k), List.drop_drop, hr, List.length_drop,
    show (ofk of l k).length + (ofk of l k).length = 2 * (ofk of l k).length by omega]

theorem filterMap_congr {l : List Nat} {f g : Nat → Option Nat} (h : ∀ i ∈ l, f i = g i) : l.filterMap f = l.filterMap g := by
  induction l with
  | nil => rfl
  | cons i l ih => rw [List.filterMap_cons, List.filterMap_cons, h i (by simp), ih fun j hj => h j (by simp [hj])]

theorem filterMap_none (l : List Nat) (f : Nat → Option Nat) (h : ∀ i ∈ l, f i = none) : l.filterMap f = [] := by
  induction l with
  | nil => rfl
  | cons i l ih => rw [List.filterMap_cons, h i (by simp)]; exact ih fun j hj => h j (by simp [hj])

/-- One operation of `l` has got `v`, the others got what they had. -/
theorem filterMap_one (l : List Nat) (hn : l.Nodup) (f : Nat → Option Nat) {i : Nat} (hi : i ∈ l) (hf : f i = none) (v : Nat) :
    (l.filterMap (set f i (some v))).Perm (v :: l.filterMap f) := by
  induction l with
  | nil => cases hi
  | cons j l ih =>
    rw [List.nodup_cons] at hn
    by_cases h : j = i
    · subst h
      rw [List.filterMap_cons, List.filterMap_cons, set_same, hf]
      have : l.filterMap (set f j (some v)) = l.filterMap f := by
        apply filterMap_congr
        intro x hx
        exact set_ne _ _ fun h => hn.1 (h ▸ hx)
      rw [this]
    · have hi' : i ∈ l := by
        rcases List.mem_cons.1 hi with h' | h'
        · exact absurd h'.symm h
        · exact h'
      have h1 := ih hn.2 hi'
      rw [List.filterMap_cons, List.filterMap_cons, set_ne _ _ h]
      cases f j with
      | none => exact h1
      | some w => exact (h1.cons w).trans (List.Perm.swap _ _ _)

/-- A race takes at most one value. -/
theorem race_have (L : List Nat) (hL : L.Nodup) : ∀ (l : List Nat) (s : St), (∀ i ∈ l, i ∈ L ∧ s.res i = none) → l.Nodup →
    (∀ i ∈ L, s.out i = none) → ∀ k, ((s.race l).have L k).Perm (s.src k) := by
  intro l
  induction l with
  | nil =>
    intro s _ _ ho k
    show (List.filterMap s.out _ ++ s.src k).Perm _
    rw [filterMap_none _ _ fun i hi => ho i (List.mem_filter.1 hi).1]
    exact List.Perm.refl _
  | cons i l ih =>
    intro s hr hn ho k
    rw [List.nodup_cons] at hn
    have hres := (hr i (by simp)).2
    have hout := ho i (hr i (by simp)).1
    have h1 := child_out s i i
    rw [if_pos rfl, hres, hout] at h1
    unfold St.race
    dsimp only
    split
    · rename_i v hv
      rw [hv] at h1
      have hh : (s.src (s.of i)).head? = some v := by simpa using h1.symm
      show (List.filterMap (s.child i).out (L.filter fun j => (s.child i).of j == k) ++ (s.child i).src k).Perm _
      rw [child_of, child_src]
      have hs : (s.child i).out = set s.out i (some v) := by
        funext j
        by_cases h : j = i
        · subst h; rw [hv]; simp
        · rw [child_out, if_neg h, set_ne _ _ h]
      rw [hs]
      by_cases h : s.of i = k
      · subst h
        rw [if_pos rfl]
        have h2 := filterMap_one (L.filter fun j => s.of j == s.of i) (hL.sublist List.filter_sublist) s.out
          (i := i) (by simp [(hr i (by simp)).1]) hout v
        rw [filterMap_none _ s.out fun i hi => ho i (List.mem_filter.1 hi).1] at h2
        refine (h2.append_right _).trans ?_
        cases hq : s.src (s.of i) with
        | nil => rw [hq] at hh; simp at hh
        | cons w q =>
          rw [hq] at hh
          simp only [List.head?_cons, Option.some.injEq] at hh
          subst hh
          exact List.Perm.refl _
      · rw [if_neg h]
        rw [filterMap_none]
        · exact List.Perm.refl _
        · intro j hj
          simp only [List.mem_filter, beq_iff_eq] at hj
          rw [set_ne, ho j hj.1]
          rintro rfl
          exact h hj.2
    · rename_i hv
      rw [hv] at h1
      have hh : s.src (s.of i) = [] := by simpa using h1.symm
      have hne : ∀ j ∈ l, j ≠ i := fun j hj h => hn.1 (h ▸ hj)
      have h2 := ih (s.child i) (fun j hj => ⟨(hr j (by simp [hj])).1, by
        rw [child_res, if_neg (hne j hj)]; exact (hr j (by simp [hj])).2⟩) hn.2 (fun j hj => by
        by_cases h : j = i
        · subst h; exact hv
        · rw [child_out, if_neg h]; exact ho j hj) k
      rw [child_src] at h2
      by_cases h : s.of i = k
      · subst h
        rw [if_pos rfl, hh] at h2
        rw [hh]; exact h2
      · rw [if_neg h] at h2
        exact h2

theorem race_of (l : List Nat) (s : St) : (s.race l).of = s.of := by
  induction l generalizing s with
  | nil => rfl
  | cons i l ih =>
    unfold St.race
    dsimp only
    split
    · simp
    · rw [ih, child_of]

/-- What arrivals need: who waits is of `l`, waits once, and has returned nothing. -/
structure Wait (s : St) (l : List Nat) : Prop where
  nodup : s.queue.Nodup
  mem : ∀ i ∈ s.queue, i ∈ l ∧ s.out i = none

theorem race_wait (L : List Nat) : ∀ (l : List Nat) (s : St), (∀ i ∈ l, i ∈ L) → l.Nodup → (∀ i ∈ l, i ∉ s.queue) → Wait s L →
    Wait (s.race l) L := by
  intro l
  induction l with
  | nil => intro s _ _ _ h; exact h
  | cons i l ih =>
    intro s hl hn hd h
    rw [List.nodup_cons] at hn
    unfold St.race
    dsimp only
    split
    · exact ⟨List.nodup_nil, fun _ h => by cases h⟩
    · rename_i hv
      have hq : (s.child i).queue = s.queue ++ [i] := by
        rw [child_queue, if_neg]
        have := child_out s i i
        rw [hv, if_pos rfl] at this
        intro hc
        rw [Option.isSome_iff_exists] at hc
        obtain ⟨v, hc⟩ := hc
        rw [hc] at this
        simp at this
      refine ih _ (fun j hj => hl j (by simp [hj])) hn.2 (fun j hj => ?_) ⟨?_, ?_⟩
      · rw [hq]
        simp only [List.mem_append, List.mem_singleton, not_or]
        exact ⟨hd j (by simp [hj]), fun h => hn.1 (h ▸ hj)⟩
      · rw [hq, List.nodup_append]
        exact ⟨h.nodup, by simp, fun a ha b hb => by
          simp only [List.mem_singleton] at hb
          subst hb
          exact fun e => hd b (by simp) (e ▸ ha)⟩
      · intro j hj
        rw [hq] at hj
        rcases List.mem_append.1 hj with hj | hj
        · refine ⟨(h.mem j hj).1, ?_⟩
          rw [child_out, if_neg (fun e : j = i => hd i (by simp) (e ▸ hj))]
          exact (h.mem j hj).2
        · simp only [List.mem_singleton] at hj
          subst hj
          exact ⟨hl j (by simp), hv⟩

theorem await_wait (src : Nat → List Nat) (of : Nat → Nat) (l : List Nat) (hn : l.Nodup) (fm : Form) :
    Wait (St.await { src, of } l fm) l ∧ (St.await { src, of } l fm).of = of := by
  have h0 : Wait ({ src, of } : St) l := ⟨List.nodup_nil, fun _ h => by cases h⟩
  cases fm with
  | each =>
    obtain ⟨h1, h2⟩ := children_queue l hn { src, of } (fun _ _ => rfl) ⟨List.nodup_nil, fun _ h => by cases h⟩
    refine ⟨⟨h1, fun i hi => ?_⟩, children_of l _⟩
    rcases h2 i hi with ⟨h | h, h'⟩
    · cases h
    · exact ⟨h, h'⟩
  | range =>
    have hr := readies_of l { src, of }
    have hq : (l.foldl St.ready { src, of }).queue = [] := hr.2.2
    obtain ⟨h1, h2⟩ := children_queue l hn (l.foldl St.ready { src, of }) (fun i _ => by rw [hr.2.1])
      ⟨by rw [hq]; exact List.nodup_nil, fun i h => by rw [hq] at h; cases h⟩
    refine ⟨⟨h1, fun i hi => ?_⟩, (children_of l _).trans hr.1⟩
    rcases h2 i hi with ⟨h | h, h'⟩
    · rw [hq] at h; cases h
    · exact ⟨h, h'⟩
  | race => exact ⟨race_wait l l _ (fun _ h => h) hn (fun _ _ h => by cases h) h0, race_of l _⟩

theorem arrive_of (s : St) (fm : Form) (k v : Nat) : (s.arrive fm k v).of = s.of := by
  unfold St.arrive
  split <;> rfl

theorem Wait.arrive {s : St} {l : List Nat} (h : Wait s l) (fm : Form) (k v : Nat) : Wait (s.arrive fm k v) l := by
  unfold St.arrive
  split
  · rename_i i hi
    have hsub : ∀ q : List Nat, q.Sublist (s.queue.erase i) → Wait { s with
        res := set s.res i (some v), out := set s.out i (some v), queue := q } l := by
      intro q hq
      refine ⟨(h.nodup.erase i).sublist hq, fun j hj => ?_⟩
      have hj' := hq.subset hj
      have hm := h.mem j (List.mem_of_mem_erase hj')
      refine ⟨hm.1, ?_⟩
      show set s.out i (some v) j = none
      rw [set_ne, hm.2]
      rintro rfl
      exact (List.Nodup.mem_erase_iff h.nodup).1 hj' |>.1 rfl
    cases fm
    · exact hsub _ (List.Sublist.refl _)
    · exact hsub _ (List.Sublist.refl _)
    · exact hsub [] (List.nil_sublist _)
  · exact ⟨h.nodup, h.mem⟩

/-- What arrives is kept. -/
theorem arrive_have {s : St} {l : List Nat} (hn : l.Nodup) (h : Wait s l) (fm : Form) (k v j : Nat) :
    ((s.arrive fm k v).have l j).Perm (s.have l j ++ if k = j then [v] else []) := by
  unfold St.arrive
  split
  · rename_i i hi
    have hm := h.mem i (List.mem_of_find?_eq_some hi)
    have hk : s.of i = k := by simpa using List.find?_some hi
    show ((l.filter fun i => s.of i == j).filterMap (set s.out i (some v)) ++ s.src j).Perm _
    split
    · rename_i hkj
      have h2 := filterMap_one (l.filter fun i => s.of i == j) (hn.sublist List.filter_sublist) s.out (i := i)
        (by simp [hm.1, hk, hkj]) hm.2 v
      refine (h2.append_right _).trans ?_
      show (v :: (s.have l j)).Perm _
      exact (List.perm_append_singleton v _).symm
    · rename_i hkj
      rw [List.append_nil]
      have : (l.filter fun i => s.of i == j).filterMap (set s.out i (some v)) =
          (l.filter fun i => s.of i == j).filterMap s.out := by
        apply filterMap_congr
        intro x hx
        simp only [List.mem_filter, beq_iff_eq] at hx
        refine set_ne _ _ ?_
        rintro rfl
        exact hkj (hk.symm.trans hx.2)
      rw [this]
      exact List.Perm.refl _
  · show ((l.filter fun i => s.of i == j).filterMap s.out ++ set s.src k (s.src k ++ [v]) j).Perm _
    split
    · rename_i hkj
      subst hkj
      rw [set_same, ← List.append_assoc]
      exact List.Perm.refl _
    · rename_i hkj
      rw [set_ne _ _ (fun h => hkj h.symm), List.append_nil]
      exact List.Perm.refl _

theorem arrivals_have (l : List Nat) (hn : l.Nodup) (fm : Form) (j : Nat) : ∀ (vs : List (Nat × Nat)) (s : St), Wait s l →
    ((vs.foldl (fun s p => s.arrive fm p.1 p.2) s).have l j).Perm
      (s.have l j ++ (vs.filter fun p => p.1 == j).map (·.2)) := by
  intro vs
  induction vs with
  | nil => intro s _; simp
  | cons p vs ih =>
    intro s h
    rw [List.foldl_cons]
    refine (ih _ (h.arrive fm p.1 p.2)).trans ?_
    refine ((arrive_have hn h fm p.1 p.2 j).append_right _).trans ?_
    rw [List.append_assoc]
    by_cases hp : p.1 = j <;> simp [hp]

end Cobalt.Early
