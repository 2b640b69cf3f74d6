import Verif.Early.Lemmas
/-!
# The order of what the operations return
-/
namespace Cobalt.Early

theorem filter_congr {l : List Nat} {f g : Nat → Bool} (h : ∀ i ∈ l, f i = g i) : l.filter f = l.filter g := by
  induction l with
  | nil => rfl
  | cons i l ih => rw [List.filter_cons, List.filter_cons, h i (by simp), ih fun j hj => h j (by simp [hj])]

theorem children_queue_eq (l : List Nat) (hn : l.Nodup) (s : St) (ho : ∀ i ∈ l, s.out i = none) :
    (l.foldl St.child s).queue = s.queue ++ l.filter fun i => ((l.foldl St.child s).out i).isNone := by
  induction l generalizing s with
  | nil => simp
  | cons i l ih =>
    rw [List.nodup_cons] at hn
    have hne : ∀ j ∈ l, j ≠ i := fun j hj h => hn.1 (h ▸ hj)
    rw [List.foldl_cons, ih hn.2 _ (fun j hj => by rw [child_out, if_neg (hne j hj)]; exact ho j (by simp [hj])),
      List.filter_cons, children_notin l _ i hn.1, child_queue, child_out, if_pos rfl, ho i (by simp)]
    cases (s.src (s.of i)).head?.or (s.res i) <;> simp

/-- The operations on source `k` that have returned are before those that wait; and who waits finds nothing. -/
structure Ord (s : St) (l : List Nat) (k : Nat) : Prop where
  split : ∃ a b, ofk s.of l k = a ++ b ∧ (∀ i ∈ a, s.out i ≠ none) ∧ (∀ i ∈ b, s.out i = none) ∧ ofk s.of s.queue k = b
  dry : ofk s.of s.queue k ≠ [] → s.src k = []

theorem deal_split (l : List Nat) : ∀ (f : Nat → Option Nat) (q : List Nat), l.map f = deal (fun _ => none) l q →
    (∀ i ∈ l.take q.length, f i ≠ none) ∧ (∀ i ∈ l.drop q.length, f i = none) := by
  induction l with
  | nil => intro f q _; simp
  | cons i l ih =>
    intro f q h
    cases q with
    | nil =>
      simp only [deal, List.map_cons, List.cons.injEq] at h
      have := (ih f [] h.2).2
      refine ⟨by simp, ?_⟩
      simp only [List.length_nil, List.drop_zero, List.mem_cons] at this ⊢
      rintro j (rfl | hj)
      · exact h.1
      · exact this j hj
    | cons v q =>
      simp only [deal, List.map_cons, List.cons.injEq] at h
      have := ih f q h.2
      refine ⟨?_, by simpa using this.2⟩
      simp only [List.length_cons, List.take_succ_cons, List.mem_cons]
      rintro j (rfl | hj)
      · rw [h.1]; simp
      · exact this.1 j hj

theorem ofk_filter (of : Nat → Nat) (l : List Nat) (f : Nat → Bool) (k : Nat) :
    ofk of (l.filter f) k = (ofk of l k).filter f := by
  unfold ofk
  rw [List.filter_filter, List.filter_filter]
  congr 1
  funext i
  exact Bool.and_comm _ _

theorem ord_of {t : St} {l : List Nat} {k : Nat} {q : List Nat} (hq : t.queue = l.filter fun i => (t.out i).isNone)
    (ho : (ofk t.of l k).map t.out = deal (fun _ => none) (ofk t.of l k) q)
    (hs : q.length < (ofk t.of l k).length → t.src k = []) : Ord t l k := by
  obtain ⟨h1, h2⟩ := deal_split _ _ _ ho
  have hb : ofk t.of t.queue k = (ofk t.of l k).drop q.length := by
    rw [hq, ofk_filter]
    conv => lhs; rw [← List.take_append_drop q.length (ofk t.of l k)]
    rw [List.filter_append, List.filter_eq_nil_iff.2, List.filter_eq_self.2, List.nil_append]
    · intro i hi; rw [h2 i hi]; rfl
    · intro i hi
      have := h1 i hi
      cases h : t.out i <;> simp_all
  refine ⟨⟨_, _, (List.take_append_drop q.length _).symm, h1, h2, hb⟩, fun hne => hs ?_⟩
  rw [hb] at hne
  apply Classical.byContradiction
  intro hc
  exact hne (List.drop_eq_nil_of_le (by omega))

theorem each_ord (src : Nat → List Nat) (of : Nat → Nat) (l : List Nat) (hn : l.Nodup) (k : Nat) :
    Ord (St.await { src, of } l .each) l k := by
  have ho := children_out l hn { src, of } (fun _ _ => rfl) k
  have hq := children_queue_eq l hn { src, of } (fun _ _ => rfl)
  have hs := children_src l { src, of } k
  have hf := children_of l { src, of }
  refine ord_of (q := src k) (by simpa [St.await] using hq) ?_ ?_
  · rw [St.await, hf]; exact ho
  · rw [St.await, hf, hs]
    intro h
    exact List.drop_eq_nil_of_le (by show (src k).length ≤ _; exact Nat.le_of_lt h)

theorem deal_nil (old : Nat → Option Nat) (l : List Nat) : deal old l [] = l.map old := by
  induction l with
  | nil => rfl
  | cons i l ih => rw [deal, ih]; rfl

theorem range_ord (src : Nat → List Nat) (of : Nat → Nat) (l : List Nat) (hn : l.Nodup) (k : Nat)
    (hk : (src k).length ≤ readers of l k) : Ord (St.await { src, of } l .range) l k := by
  have h1 := readies_of l { src, of }
  have ho := children_out l hn (l.foldl St.ready { src, of }) (by rw [h1.2.1]; exact fun _ _ => rfl) k
  have hq := children_queue_eq l hn (l.foldl St.ready { src, of }) (by rw [h1.2.1]; exact fun _ _ => rfl)
  have hs := children_src l (l.foldl St.ready { src, of }) k
  have hf := children_of l (l.foldl St.ready { src, of })
  have hr := readies_src l { src, of } k
  have hz : (l.foldl St.ready { src, of }).src k = [] := by
    rw [hr]; exact List.drop_eq_nil_of_le hk
  rw [hz, deal_nil, h1.1, readies_res l hn { src, of } k] at ho
  rw [h1.2.2] at hq
  refine ord_of (q := src k) (by simpa [St.await] using hq) ?_ ?_
  · rw [St.await, hf, h1.1]; exact ho
  · intro _
    rw [St.await, hs, hz, List.drop_nil]

theorem find_ofk (of : Nat → Nat) (q : List Nat) (k : Nat) : q.find? (fun i => of i == k) = (ofk of q k).head? := by
  unfold ofk
  rw [List.head?_filter]

theorem erase_ofk_same (of : Nat → Nat) (q : List Nat) (k i : Nat) (b : List Nat) (h : ofk of q k = i :: b) :
    ofk of (q.erase i) k = b := by
  induction q with
  | nil => simp [ofk] at h
  | cons j q ih =>
    by_cases hj : of j = k
    · subst hj
      rw [ofk_cons_same] at h
      simp only [List.cons.injEq] at h
      obtain ⟨rfl, h⟩ := h
      rw [List.erase_cons_head, h]
    · rw [ofk_cons_ne hj] at h
      have hi : of i = k := (mem_ofk.1 (h ▸ List.mem_cons_self : i ∈ ofk of q k)).2
      have hne : j ≠ i := by rintro rfl; exact hj hi
      rw [List.erase_cons_tail (by simpa using hne), ofk_cons_ne hj]
      exact ih h

theorem erase_ofk_ne (of : Nat → Nat) (q : List Nat) (k i : Nat) (h : of i ≠ k) : ofk of (q.erase i) k = ofk of q k := by
  induction q with
  | nil => rfl
  | cons j q ih =>
    by_cases hj : j = i
    · subst hj
      rw [List.erase_cons_head, ofk_cons_ne h]
    · rw [List.erase_cons_tail (by simpa using hj)]
      by_cases hk : of j = k
      · subst hk
        rw [ofk_cons_same, ofk_cons_same, ih]
      · rw [ofk_cons_ne hk, ofk_cons_ne hk, ih]

/-- Outside a race, what arrives comes after what is there, and the order stays. -/
theorem Ord.arrive {s : St} {l : List Nat} {j : Nat} (h : Ord s l j) (hn : l.Nodup) {fm : Form} (hf : fm ≠ .race) (k v : Nat) :
    Ord (s.arrive fm k v) l j ∧ (s.arrive fm k v).have l j = s.have l j ++ if k = j then [v] else [] := by
  obtain ⟨⟨a, b, h1, h2, h3, h4⟩, hd⟩ := h
  have hnd : (ofk s.of l j).Nodup := hn.sublist List.filter_sublist
  unfold St.arrive
  rw [find_ofk]
  split
  · rename_i i hi
    obtain ⟨q, hq⟩ : ∃ q, ofk s.of s.queue k = i :: q := by
      cases hc : ofk s.of s.queue k with
      | nil => rw [hc] at hi; cases hi
      | cons x q => rw [hc] at hi; simp at hi; exact ⟨q, by rw [hi]⟩
    have hik : s.of i = k := (mem_ofk.1 (hq ▸ List.mem_cons_self : i ∈ ofk s.of s.queue k)).2
    have hqe : fm.rest s.queue i = s.queue.erase i := by cases fm <;> first | rfl | contradiction
    rw [hqe]
    by_cases hkj : k = j
    · subst hkj
      rw [hq] at h4
      subst h4
      have hqd : s.src k = [] := hd (by rw [hq]; simp)
      rw [h1, List.nodup_append] at hnd
      have hna : i ∉ a := fun h => hnd.2.2 i h i List.mem_cons_self rfl
      have hnq : i ∉ q := (List.nodup_cons.1 hnd.2.1).1
      refine ⟨⟨⟨a ++ [i], q, by rw [h1]; simp, ?_, ?_, ?_⟩, fun _ => hqd⟩, ?_⟩
      · intro x hx
        rcases List.mem_append.1 hx with hx | hx
        · show set s.out i (some v) x ≠ none
          rw [set_ne s.out (some v) (fun e : x = i => hna (e ▸ hx))]
          exact h2 x hx
        · simp only [List.mem_singleton] at hx
          subst hx
          show set s.out x (some v) x ≠ none
          simp
      · intro x hx
        show set s.out i (some v) x = none
        rw [set_ne s.out (some v) (fun e : x = i => hnq (e ▸ hx))]
        exact h3 x (by simp [hx])
      · exact erase_ofk_same _ _ _ _ _ hq
      · rw [if_pos rfl]
        show (ofk s.of l k).filterMap (set s.out i (some v)) ++ s.src k = ((ofk s.of l k).filterMap s.out ++ s.src k) ++ [v]
        rw [hqd, h1, List.filterMap_append, List.filterMap_append, List.filterMap_cons, set_same, List.filterMap_cons,
          h3 i (by simp), filterMap_none q s.out (fun x hx => h3 x (by simp [hx])),
          filterMap_none q _ (fun x hx => (set_ne s.out (some v) (fun e : x = i => hnq (e ▸ hx))).trans (h3 x (by simp [hx])))]
        rw [filterMap_congr (f := set s.out i (some v)) (g := s.out) (fun x hx => set_ne s.out (some v) (fun e : x = i => hna (e ▸ hx)))]
        simp
    · have hne : ∀ x ∈ ofk s.of l j, set s.out i (some v) x = s.out x := by
        intro x hx
        apply set_ne
        rintro rfl
        exact hkj (hik.symm.trans (mem_ofk.1 hx).2)
      refine ⟨⟨⟨a, b, h1, ?_, ?_, ?_⟩, ?_⟩, ?_⟩
      · intro x hx
        show set s.out i (some v) x ≠ none
        rw [hne x (by rw [h1]; simp [hx])]
        exact h2 x hx
      · intro x hx
        show set s.out i (some v) x = none
        rw [hne x (by rw [h1]; simp [hx])]
        exact h3 x hx
      · exact (erase_ofk_ne _ _ _ _ (by rw [hik]; exact hkj)).trans h4
      · intro hx
        apply hd
        intro hy
        exact hx ((erase_ofk_ne _ _ _ _ (by rw [hik]; exact hkj)).trans hy)
      · rw [if_neg hkj, List.append_nil]
        show (ofk s.of l j).filterMap (set s.out i (some v)) ++ s.src j = (ofk s.of l j).filterMap s.out ++ s.src j
        rw [filterMap_congr hne]
  · rename_i hi
    have hq : ofk s.of s.queue k = [] := by simpa using hi
    by_cases hkj : k = j
    · subst hkj
      refine ⟨⟨⟨a, b, h1, h2, h3, h4⟩, fun hx => absurd hq hx⟩, ?_⟩
      rw [if_pos rfl]
      show (ofk s.of l k).filterMap s.out ++ set s.src k (s.src k ++ [v]) k = ((ofk s.of l k).filterMap s.out ++ s.src k) ++ [v]
      rw [set_same, List.append_assoc]
    · have hset : set s.src k (s.src k ++ [v]) j = s.src j := set_ne _ _ (fun e => hkj e.symm)
      refine ⟨⟨⟨a, b, h1, h2, h3, h4⟩, fun hx => ?_⟩, ?_⟩
      · show set s.src k (s.src k ++ [v]) j = []
        rw [hset]; exact hd hx
      · rw [if_neg hkj, List.append_nil]
        show (ofk s.of l j).filterMap s.out ++ set s.src k (s.src k ++ [v]) j = (ofk s.of l j).filterMap s.out ++ s.src j
        rw [hset]

theorem arrivals_ord (l : List Nat) (hn : l.Nodup) {fm : Form} (hf : fm ≠ .race) (j : Nat) :
    ∀ (vs : List (Nat × Nat)) (s : St), Ord s l j →
      (vs.foldl (fun s p => s.arrive fm p.1 p.2) s).have l j = s.have l j ++ (vs.filter fun p => p.1 == j).map (·.2) := by
  intro vs
  induction vs with
  | nil => intro s _; simp
  | cons p vs ih =>
    intro s h
    obtain ⟨h1, h2⟩ := h.arrive hn hf p.1 p.2
    rw [List.foldl_cons, ih _ h1, h2, List.append_assoc]
    by_cases hp : p.1 = j <;> simp [hp]

/-- A race has returned at most one value, and then nobody waits. -/
structure One (s : St) (l : List Nat) : Prop where
  len : (l.filterMap s.out).length ≤ 1
  done : l.filterMap s.out ≠ [] → s.queue = []

theorem race_one (L : List Nat) (hL : L.Nodup) : ∀ (l : List Nat) (s : St), (∀ i ∈ l, i ∈ L) → (∀ i ∈ L, s.out i = none) →
    One (s.race l) L := by
  intro l
  induction l with
  | nil =>
    intro s _ ho
    have : L.filterMap s.out = [] := filterMap_none _ _ ho
    exact ⟨by show (L.filterMap s.out).length ≤ 1; rw [this]; simp, fun h => absurd this h⟩
  | cons i l ih =>
    intro s hl ho
    unfold St.race
    dsimp only
    split
    · rename_i v hv
      have hs : (s.child i).out = set s.out i (some v) := by
        funext j
        by_cases h : j = i
        · subst h; rw [hv]; simp
        · rw [child_out, if_neg h, set_ne _ _ h]
      have h2 := (filterMap_one L hL s.out (hl i (by simp)) (ho i (hl i (by simp))) v).length_eq
      rw [filterMap_none _ _ ho, ← hs] at h2
      exact ⟨by show (L.filterMap (s.child i).out).length ≤ 1; rw [h2]; simp, fun _ => rfl⟩
    · rename_i hv
      refine ih _ (fun j hj => hl j (by simp [hj])) fun j hj => ?_
      by_cases h : j = i
      · subst h; exact hv
      · rw [child_out, if_neg h]; exact ho j hj

theorem One.arrive {s : St} {l : List Nat} (h : One s l) (hn : l.Nodup) (hw : Wait s l) (k v : Nat) :
    One (s.arrive .race k v) l := by
  unfold St.arrive
  split
  · rename_i i hi
    have hm := List.mem_of_find?_eq_some hi
    have hz : l.filterMap s.out = [] := by
      apply Classical.byContradiction
      intro hc
      rw [h.done hc] at hm
      cases hm
    have h2 := (filterMap_one l hn s.out (hw.mem i hm).1 (hw.mem i hm).2 v).length_eq
    rw [hz] at h2
    exact ⟨by show (l.filterMap (set s.out i (some v))).length ≤ 1; rw [h2]; simp, fun _ => rfl⟩
  · exact ⟨h.len, h.done⟩

/-! ## Nobody is left out -/

/-- Who has returned nothing waits at an empty source, if it is not a race that is over. -/
def Live (s : St) (l : List Nat) (fm : Form) : Prop :=
  (fm = .race ∧ ∃ j ∈ l, s.out j ≠ none) ∨ ∀ i ∈ l, s.out i = none → i ∈ s.queue ∧ s.src (s.of i) = []

theorem children_live (l : List Nat) (hn : l.Nodup) (s : St) (ho : ∀ i ∈ l, s.out i = none) :
    ∀ i ∈ l, (l.foldl St.child s).out i = none →
      i ∈ (l.foldl St.child s).queue ∧ (l.foldl St.child s).src ((l.foldl St.child s).of i) = [] := by
  intro i hi h
  refine ⟨?_, ?_⟩
  · rw [children_queue_eq l hn s ho]
    refine List.mem_append_right _ (List.mem_filter.2 ⟨hi, by rw [h]; rfl⟩)
  · rw [children_of]
    induction l generalizing s with
    | nil => cases hi
    | cons j l ih =>
      rw [List.nodup_cons] at hn
      have hne : ∀ x ∈ l, x ≠ j := fun x hx e => hn.1 (e ▸ hx)
      rw [List.foldl_cons] at h ⊢
      rcases List.mem_cons.1 hi with rfl | hi
      · rw [children_notin l _ i hn.1, child_out, if_pos rfl, ho i (by simp)] at h
        have : s.src (s.of i) = [] := by
          cases hc : s.src (s.of i) with
          | nil => rfl
          | cons v q => rw [hc] at h; simp at h
        rw [children_src, child_src, if_pos rfl, this]
        simp
      · have := ih hn.2 (s.child j) (fun x hx => by rw [child_out, if_neg (hne x hx)]; exact ho x (by simp [hx])) hi h
        rw [child_of] at this
        exact this

theorem race_live (L : List Nat) : ∀ (l : List Nat) (s : St), (∀ i ∈ l, i ∈ L) →
    (∀ i ∈ L, i ∈ l ∨ (i ∈ s.queue ∧ s.src (s.of i) = [])) → Live (s.race l) L .race := by
  intro l
  induction l with
  | nil =>
    intro s _ h
    refine .inr fun i hi _ => ?_
    rcases h i hi with h | h
    · cases h
    · exact h
  | cons i l ih =>
    intro s hl h
    unfold St.race
    dsimp only
    split
    · rename_i v hv
      exact .inl ⟨rfl, i, hl i (by simp), by show (s.child i).out i ≠ none; rw [hv]; simp⟩
    · rename_i hv
      have hv' := child_out s i i
      rw [hv, if_pos rfl] at hv'
      have hx : (s.src (s.of i)).head?.or (s.res i) = none := by
        cases hc : (s.src (s.of i)).head?.or (s.res i) with
        | none => rfl
        | some v => rw [hc] at hv'; simp at hv'
      have he : s.src (s.of i) = [] := by
        cases hc : s.src (s.of i) with
        | nil => rfl
        | cons v q => rw [hc] at hx; simp at hx
      have hq : (s.child i).queue = s.queue ++ [i] := by rw [child_queue, hx]; rfl
      refine ih _ (fun j hj => hl j (by simp [hj])) fun j hj => ?_
      rw [hq, child_of, child_src]
      rcases h j hj with h | h
      · rcases List.mem_cons.1 h with rfl | h
        · exact .inr ⟨by simp, by rw [if_pos rfl, he]; rfl⟩
        · exact .inl h
      · refine .inr ⟨by simp [h.1], ?_⟩
        split <;> rw [h.2]
        rfl

theorem await_live (src : Nat → List Nat) (of : Nat → Nat) (l : List Nat) (hn : l.Nodup) (fm : Form) :
    Live (St.await { src, of } l fm) l fm := by
  cases fm with
  | each => exact .inr (children_live l hn _ fun _ _ => rfl)
  | range =>
    have h1 := readies_of l { src, of }
    exact .inr (children_live l hn _ (by rw [h1.2.1]; exact fun _ _ => rfl))
  | race => exact race_live l l _ (fun _ h => h) fun i hi => .inl hi

theorem Live.arrive {s : St} {l : List Nat} {fm : Form} (h : Live s l fm) (hw : Wait s l) (k v : Nat) :
    Live (s.arrive fm k v) l fm := by
  unfold St.arrive
  split
  · rename_i i hi
    have hm := hw.mem i (List.mem_of_find?_eq_some hi)
    have hset : ∀ j, s.out j ≠ none → set s.out i (some v) j ≠ none := by
      intro j hj
      by_cases e : j = i
      · subst e; simp
      · rw [set_ne _ _ e]; exact hj
    rcases h with ⟨h, j, hj, hj'⟩ | h
    · exact .inl ⟨h, j, hj, hset j hj'⟩
    · by_cases hf : fm = .race
      · exact .inl ⟨hf, i, hm.1, by show set s.out i (some v) i ≠ none; simp⟩
      · refine .inr fun j hj hj' => ?_
        have hne : j ≠ i := by
          rintro rfl
          simp at hj'
        have hj'' : s.out j = none := by
          have : set s.out i (some v) j = none := hj'
          rwa [set_ne _ _ hne] at this
        obtain ⟨h1, h2⟩ := h j hj hj''
        have hqe : fm.rest s.queue i = s.queue.erase i := by cases fm <;> first | rfl | contradiction
        refine ⟨?_, h2⟩
        show j ∈ fm.rest s.queue i
        rw [hqe]
        exact (List.mem_erase_of_ne hne).2 h1
  · rename_i hi
    rcases h with ⟨h, j, hj, hj'⟩ | h
    · exact .inl ⟨h, j, hj, hj'⟩
    · refine .inr fun j hj hj' => ?_
      obtain ⟨h1, h2⟩ := h j hj hj'
      refine ⟨h1, ?_⟩
      show set s.src k (s.src k ++ [v]) (s.of j) = []
      rw [set_ne, h2]
      intro e
      rw [List.find?_eq_none] at hi
      exact hi j h1 (by simp [e])

end Cobalt.Early
