import Verif.Order.Model
import Verif.Order.Spec
import Verif.Order.Reach
import Mathlib.Data.List.Perm.Basic
import Mathlib.Data.List.Perm.Subperm
import Mathlib.Data.List.Range
import Mathlib.Data.List.Nodup
/-! Lemmas about shuffling. -/
namespace Cobalt.Order

/-- A draw for place `k` is at or before it. -/
def Draws (d : Nat → Nat) : Prop := ∀ k, d k ≤ k

theorem swap_swap (a : Nat → Nat) (i r : Nat) : swap (swap a i r) i r = a := by
  funext j; unfold swap; grind

/-- A rearrangement of the places below `n`. -/
structure Moves (n : Nat) (f : Nat → Nat) : Prop where
  inj : ∀ i j, f i = f j → i = j
  lt : ∀ i, i < n → f i < n
  id : ∀ i, n ≤ i → f i = i

theorem Moves.swap {n : Nat} {f : Nat → Nat} (h : Moves n f) {i r : Nat} (hi : i < n) (hr : r < n) :
    Moves n (swap f i r) := by
  refine ⟨fun a b => ?_, fun j hj => ?_, fun j hj => ?_⟩
  · have h1 := h.inj a b; have h2 := h.inj r b; have h3 := h.inj i b
    have h4 := h.inj a r; have h5 := h.inj a i; have h6 := h.inj i r; have h7 := h.inj r i
    unfold Order.swap; grind
  · unfold Order.swap; have h1 := h.lt j hj; have h2 := h.lt i hi; have h3 := h.lt r hr; grind
  · unfold Order.swap; rw [if_neg (by omega), if_neg (by omega)]; exact h.id j hj

theorem Moves.mono {n : Nat} {f : Nat → Nat} (h : Moves n f) : Moves (n + 1) f := by
  refine ⟨h.inj, fun i hi => ?_, fun i hi => h.id i (by omega)⟩
  by_cases hn : i < n
  · have := h.lt i hn; omega
  · rw [h.id i (by omega)]; exact hi

theorem shuffled_moves {d : Nat → Nat} (hd : Draws d) : ∀ n, Moves n (shuffled d n)
  | 0 => ⟨fun _ _ h => h, fun i h => absurd h (by omega), fun _ _ => rfl⟩
  | n + 1 => (shuffled_moves hd n).mono.swap (by omega) (Nat.lt_succ_of_le (hd n))

/-- The draw for the last place says where that went. -/
theorem shuffled_last {d : Nat → Nat} (hd : Draws d) (n : Nat) : shuffled d (n + 1) (d n) = n := by
  have h := (shuffled_moves hd n).id n (Nat.le_refl n)
  show Order.swap (shuffled d n) n (d n) (d n) = n
  unfold Order.swap
  by_cases hx : d n = n
  · rw [if_pos hx, hx]; exact h
  · rw [if_neg hx, if_pos rfl]; exact h

/-- Different draws give different orders. -/
theorem shuffled_inj {d e : Nat → Nat} (hd : Draws d) (he : Draws e) :
    ∀ n, shuffled d n = shuffled e n → ∀ k, k < n → d k = e k
  | 0, _, k, hk => absurd hk (by omega)
  | n + 1, h, k, hk => by
    have h1 : d n = e n := by
      apply (shuffled_moves hd (n + 1)).inj
      rw [shuffled_last hd, h, shuffled_last he]
    by_cases hkn : k = n
    · rw [hkn]; exact h1
    · refine shuffled_inj hd he n ?_ k (by omega)
      have h2 := congrArg (fun a => swap a n (d n)) h
      simp only [shuffled] at h2
      rwa [swap_swap, h1, swap_swap] at h2

theorem shuffled_congr {d e : Nat → Nat} : ∀ n, (∀ k, k < n → d k = e k) → shuffled d n = shuffled e n
  | 0, _ => rfl
  | n + 1, h => by
    simp only [shuffled]
    rw [shuffled_congr n (fun k hk => h k (by omega)), h n (by omega)]

theorem Moves.onto {n : Nat} {f : Nat → Nat} (h : Moves n f) {x : Nat} (hx : x < n) : ∃ i, i < n ∧ f i = x := by
  have h1 : ((List.range n).map f).Nodup := List.Nodup.map (fun a b hab => h.inj a b hab) List.nodup_range
  have h2 : (List.range n).map f ⊆ List.range n := by
    intro y hy
    obtain ⟨i, hi, rfl⟩ := List.mem_map.1 hy
    exact List.mem_range.2 (h.lt i (List.mem_range.1 hi))
  have h3 : ((List.range n).map f).Perm (List.range n) :=
    (List.subperm_of_subset h1 h2).perm_of_length_le (by simp)
  obtain ⟨i, hi, e⟩ := List.mem_map.1 (h3.mem_iff.2 (List.mem_range.2 hx))
  exact ⟨i, List.mem_range.1 hi, e⟩

/-- Every rearrangement is drawn by someone. -/
theorem shuffled_onto : ∀ (n : Nat) {f : Nat → Nat}, Moves n f → ∃ d, Draws d ∧ shuffled d n = f
  | 0, f, h => ⟨fun _ => 0, fun _ => Nat.zero_le _, by funext j; exact (h.id j (Nat.zero_le j)).symm⟩
  | n + 1, f, h => by
    obtain ⟨r, hr, hf⟩ := h.onto (Nat.lt_succ_self n)
    have h1 := h.swap (Nat.lt_succ_self n) hr
    have hn : Order.swap f n r n = n := by unfold Order.swap; rw [if_pos rfl]; exact hf
    have h2 : Moves n (Order.swap f n r) := by
      refine ⟨h1.inj, fun i hi => ?_, fun i hi => ?_⟩
      · have := h1.lt i (by omega)
        rcases Nat.lt_succ_iff_lt_or_eq.1 this with h | h
        · exact h
        · have := h1.inj i n (by rw [hn]; exact h)
          omega
      · by_cases hx : i = n
        · rw [hx]; exact hn
        · exact h1.id i (by omega)
    obtain ⟨d, hd, e⟩ := shuffled_onto n h2
    refine ⟨fun k => if k = n then r else d k, fun k => ?_, ?_⟩
    · dsimp only
      split
      · omega
      · exact hd k
    · simp only [shuffled, if_true]
      rw [shuffled_congr (e := d) n (fun k hk => by simp [Nat.ne_of_lt hk]), e, swap_swap]

theorem tries_perm (left : Bool) {d : Nat → Nat} (hd : Draws d) (n : Nat) : (tries left d n).Perm (List.range n) := by
  unfold tries
  split
  · exact List.Perm.refl _
  · have h := shuffled_moves hd n
    have h1 : ((List.range n).map (shuffled d n)).Nodup := List.Nodup.map (fun a b hab => h.inj a b hab) List.nodup_range
    have h2 : (List.range n).map (shuffled d n) ⊆ List.range n := by
      intro y hy
      obtain ⟨i, hi, rfl⟩ := List.mem_map.1 hy
      exact List.mem_range.2 (h.lt i (List.mem_range.1 hi))
    exact (List.subperm_of_subset h1 h2).perm_of_length_le (by simp)

/-- A list in the order of a rearrangement. -/
theorem moves_of_perm {l : List Nat} {n : Nat} (h : l.Perm (List.range n)) :
    Moves n (fun j => if hj : j < l.length then l[j] else j) ∧
      (List.range n).map (fun j => if hj : j < l.length then l[j] else j) = l := by
  have hlen : l.length = n := by simpa using h.length_eq
  have hnd : l.Nodup := h.nodup_iff.2 List.nodup_range
  have hlt : ∀ i (hi : i < l.length), l[i] < n := fun i hi =>
    List.mem_range.1 (h.mem_iff.1 (List.getElem_mem hi))
  refine ⟨⟨fun i j hij => ?_, fun i hi => ?_, fun i hi => ?_⟩, ?_⟩
  · by_cases h1 : i < l.length <;> by_cases h2 : j < l.length
    · rw [dif_pos h1, dif_pos h2] at hij; exact (hnd.getElem_inj_iff).1 hij
    · rw [dif_pos h1, dif_neg h2] at hij; have := hlt i h1; omega
    · rw [dif_neg h1, dif_pos h2] at hij; have := hlt j h2; omega
    · rwa [dif_neg h1, dif_neg h2] at hij
  · rw [dif_pos (by omega)]; exact hlt i (by omega)
  · rw [dif_neg (by omega)]
  · apply List.ext_getElem
    · simp [hlen]
    · intro i h1 h2; simp [h2]

theorem race_ok (left : Bool) {d : Nat → Nat} (hd : Draws d) (n : Nat) (intr void : Nat → Bool)
    (allVoid ranged : Bool) (ct : Nat) : (race left d n intr void allVoid ranged ct).Ok := by
  have h := tries_perm left hd n
  refine ⟨h.nodup_iff.2 List.nodup_range, fun i => ?_, fun hk => absurd rfl hk⟩
  rw [show (race left d n intr void allVoid ranged ct).order = tries left d n from rfl, h.mem_iff]
  exact List.mem_range

open Comb

/-- Awaitable `i` is asked whether it is ready, or suspended in, with this event. -/
theorem prior {c : Cfg} (hc : c.Ok) {es : List Ev} (hl : Legal c {} es) (hu : (St.run c es).ub = false) {i : Nat}
    (hs : (St.run c es).stack.head? = some (.asking i) ∨ (St.run c es).stack.head? = some (.starting i))
    {l r : List Nat} (ho : c.order = l ++ i :: r) {j : Nat} (hj : j ∈ l) :
    (St.run c es).child j = .waiting ∨ (outcome es j).isSome = true := by
  have ha := All.run hc hl hu
  have hf := Front.run hc hl hu
  have ht : (Tag.ask i ∈ (St.run c es).tags ∨ Tag.start i ∈ (St.run c es).tags) ∧
      ∃ t T, (St.run c es).tags = t :: T ∧ t.isStart = true ∧ ∀ j, j ≠ i → t ≠ Tag.ask j := by
    rcases hs with h | h
    · have e := tags_of_head h
      rw [e]
      refine ⟨Or.inl (by simp [Frame.tag]), _, _, rfl, rfl, ?_⟩
      intro j hji hx; simp [Frame.tag] at hx; exact hji hx.symm
    · have e := tags_of_head h
      rw [e]
      exact ⟨Or.inr (by simp [Frame.tag]), _, _, rfl, rfl, fun j _ hx => by simp [Frame.tag] at hx⟩
  obtain ⟨ht, t, T, e, h1, h2⟩ := ht
  have hi : (St.run c es).child i ≠ .idle := by
    rcases ht with h | h
    · rw [(ha.inv.asking i).2 h]; simp
    · rcases ha.inv.started i h with h | h | h <;> rw [h] <;> simp
  obtain ⟨m, hm, hmi⟩ := hf.front ⟨i, hi⟩
  have hnd := hc.nodup
  have him : i ∉ (St.run c es).todo := fun hx => hi (ha.inv.todo i hx).1
  have hjm : j ∈ m := by
    have hmem : j ∈ c.order := by rw [ho]; simp [hj]
    rw [hm] at hmem
    rcases List.mem_append.1 hmem with h | h
    · exact h
    · exfalso
      have hmi : i ∈ m := by
        have : i ∈ c.order := by rw [ho]; simp
        rw [hm] at this
        exact (List.mem_append.1 this).resolve_right him
      -- `j` comes before `i` in the order, and after
      have he : l ++ i :: r = m ++ (St.run c es).todo := ho.symm.trans hm
      rw [ho] at hnd
      rcases List.append_eq_append_iff.1 he with ⟨x, e1, e2⟩ | ⟨x, e1, e2⟩
      · cases x with
        | nil => simp only [List.nil_append] at e2; exact him (by rw [← e2]; simp)
        | cons y x =>
          have : j ∈ r := by
            injection e2 with _ e2; rw [e2]; simp [h]
          rw [List.nodup_append] at hnd
          exact hnd.2.2 j hj j (by simp [this]) rfl
      · rw [List.nodup_append] at hnd
        exact hnd.2.2 i (by rw [e1]; simp [hmi]) i (by simp) rfl
  have hji : j ≠ i := by
    rintro rfl
    rw [ho, List.nodup_append] at hnd
    exact hnd.2.2 j hj j (by simp) rfl
  have hask : (St.run c es).child j ≠ .asking := by
    intro hx
    have hx := (ha.inv.asking j).1 hx
    rw [e] at hx
    have hx : Tag.ask j ∈ T := (List.mem_cons.1 hx).resolve_left (fun h => h2 j hji h.symm)
    have hs := ha.inv.starts
    rw [e, List.countP_cons, if_pos h1] at hs
    have : 0 < T.countP Tag.isStart := List.countP_pos_iff.2 ⟨_, hx, rfl⟩
    split at hs <;> omega
  have hidle := hmi j hjm
  have hen := ha.hist.ended j
  cases hcj : (St.run c es).child j with
  | idle => exact absurd hcj hidle
  | asking => exact absurd hcj hask
  | waiting => exact Or.inl rfl
  | running => right; rw [← hen, hcj]; rfl
  | finished => right; rw [← hen, hcj]; rfl

theorem outcome_event {es : List Ev} {j : Nat} (h : (outcome es j).isSome = true) :
    ∃ e ∈ es, ∃ o, e.ends = some (j, o) := by
  unfold outcome at h
  rw [List.findSome?_isSome_iff] at h
  obtain ⟨p, hp, hx⟩ := h
  obtain ⟨e, he, hep⟩ := List.mem_filterMap.1 hp
  by_cases hpj : p.1 = j
  · exact ⟨e, he, p.2, by rw [hep, ← hpj]⟩
  · simp [hpj] at hx

/-- Who answers is being asked, or is being suspended in. -/
theorem head_of_answers {c : Cfg} {s : St} {e : Ev} {i : Nat} (he : answers e = some i) (hcan : s.can c e = true) :
    s.stack.head? = some (.asking i) ∨ s.stack.head? = some (.starting i) := by
  cases e <;> simp only [answers, reduceCtorEq, Option.some.injEq] at he <;> subst he <;>
    simp only [St.can, beq_iff_eq, Bool.or_eq_true, Bool.and_eq_true] at hcan
  · exact Or.inl hcan
  · exact Or.inl hcan
  · rcases hcan with h | h
    · exact Or.inl h
    · exact Or.inr h.1

theorem answers_known {c : Cfg} (hc : c.Ok) {pre post : List Ev} {e : Ev} {i : Nat} (he : answers e = some i)
    (hl : Legal c {} (pre ++ e :: post)) : i < c.n := by
  obtain ⟨hl1, hl2⟩ := legal_append hl
  have hs : (St.run c pre).stack.head? = some (.asking i) ∨ (St.run c pre).stack.head? = some (.starting i) :=
    head_of_answers he hl2.1
  have ha := All.run hc hl1 (defined_of_head hc hl1 hs)
  refine (hc.mem i).1 (ha.inv.known i ?_)
  rcases hs with h | h
  · have : Tag.ask i ∈ (St.run c pre).tags := by rw [tags_of_head h]; simp [Frame.tag]
    rw [(ha.inv.asking i).2 this]; simp
  · have : Tag.start i ∈ (St.run c pre).tags := by rw [tags_of_head h]; simp [Frame.tag]
    rcases ha.inv.started i this with h | h | h <;> rw [h] <;> simp

end Cobalt.Order
