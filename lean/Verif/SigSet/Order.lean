import Verif.SigSet.Balance
namespace Cobalt.SigSet

/-- The wait has nothing to do with set `k`, or is over. -/
def Off (k : Nat) (w : Wait) : Prop := w.set = k → w.stage = .done

/-- What a wait is about to tell. -/
def Wait.word (k : Nat) (w : Wait) : Option Nat :=
  match w.stage with
  | .posted (.sig n) => if w.set = k ∧ w.dropped = false then some n else none
  | _ => none

theorem way_eq (k : Nat) (s : St) : way k s = s.waits.filterMap (Wait.word k) := rfl

theorem Off.word {k : Nat} {w : Wait} (h : Off k w) : w.word k = none := by
  unfold Wait.word
  split
  · rename_i n hn
    rw [if_neg]
    intro hk
    rw [h hk.1] at hn
    cases hn
  · rfl

theorem word_off {k : Nat} {l : List Wait} (h : ∀ w ∈ l, Off k w) : l.filterMap (Wait.word k) = [] := by
  rw [List.filterMap_eq_nil_iff]
  exact fun w hw => (h w hw).word

/-- At most one wait of set `k` is not over. -/
def Solo (k : Nat) (l : List Wait) : Prop :=
  (∀ w ∈ l, Off k w) ∨ ∃ a w b, l = a ++ w :: b ∧ (∀ v ∈ a, Off k v) ∧ ∀ v ∈ b, Off k v

theorem abort_word (k : Nat) (w : Wait) : w.abort.word k = w.word k := by
  unfold Wait.abort
  split
  · rename_i h; simp [Wait.word, h]
  · rfl

theorem abort_off {k : Nat} {w : Wait} (h : Off k w) : Off k w.abort := by
  intro hk
  rw [abort_set] at hk
  have := h hk
  unfold Wait.abort
  rw [this]
  exact this

theorem Solo.map {k : Nat} {l : List Wait} {f : Wait → Wait} (hf : ∀ w, Off k w → Off k (f w)) (h : Solo k l) : Solo k (l.map f) := by
  rcases h with h | ⟨a, w, b, rfl, h1, h2⟩
  · left
    intro w hw
    obtain ⟨v, hv, rfl⟩ := List.mem_map.1 hw
    exact hf v (h v hv)
  · right
    refine ⟨a.map f, f w, b.map f, by simp, fun v hv => ?_, fun v hv => ?_⟩
    · obtain ⟨u, hu, rfl⟩ := List.mem_map.1 hv
      exact hf u (h1 u hu)
    · obtain ⟨u, hu, rfl⟩ := List.mem_map.1 hv
      exact hf u (h2 u hu)

theorem set_cases {α : Type} {P : α → Prop} {l : List α} {i : Nat} {x y : α} (hi : l[i]? = some x) (hxy : P x → P y) :
    ((∀ w ∈ l, P w) ∨ ∃ a w b, l = a ++ w :: b ∧ (∀ v ∈ a, P v) ∧ ∀ v ∈ b, P v) →
    ((∀ w ∈ l.set i y, P w) ∨ ∃ a w b, l.set i y = a ++ w :: b ∧ (∀ v ∈ a, P v) ∧ ∀ v ∈ b, P v) := by
  rintro (h | ⟨a, w, b, rfl, h1, h2⟩)
  · left
    intro w hw
    rcases List.mem_or_eq_of_mem_set hw with hw | rfl
    · exact h w hw
    · exact hxy (h x (List.mem_of_getElem? hi))
  · right
    rcases Nat.lt_trichotomy i a.length with hlt | rfl | hgt
    · rw [List.getElem?_append_left hlt] at hi
      refine ⟨a.set i y, w, b, by rw [List.set_append_left _ _ hlt], fun v hv => ?_, h2⟩
      rcases List.mem_or_eq_of_mem_set hv with hv | rfl
      · exact h1 v hv
      · exact hxy (h1 x (List.mem_of_getElem? hi))
    · exact ⟨a, y, b, by simp, h1, h2⟩
    · rw [List.getElem?_append_right (Nat.le_of_lt hgt)] at hi
      obtain ⟨j, hj⟩ : ∃ j, i - a.length = j + 1 := ⟨i - a.length - 1, by omega⟩
      rw [hj] at hi
      refine ⟨a, w, b.set j y, by rw [List.set_append_right _ _ (Nat.le_of_lt hgt), hj]; rfl, h1, fun v hv => ?_⟩
      rcases List.mem_or_eq_of_mem_set hv with hv | rfl
      · exact h2 v hv
      · exact hxy (h2 x (List.mem_of_getElem? (by simpa using hi)))

theorem Solo.set {k : Nat} {l : List Wait} {i : Nat} {x y : Wait} (h : Solo k l) (hi : l[i]? = some x) (hxy : Off k x → Off k y) :
    Solo k (l.set i y) := set_cases hi hxy h

theorem Solo.append {k : Nat} {l : List Wait} (h : Solo k l) {w : Wait} (ho : Off k w) : Solo k (l ++ [w]) := by
  rcases h with h1 | ⟨a, v, b, h1, h2, h3⟩
  · left
    intro v hv
    rcases List.mem_append.1 hv with hv | hv
    · exact h1 v hv
    · rw [List.mem_singleton] at hv; subst hv; exact ho
  · right
    refine ⟨a, v, b ++ [w], by rw [h1]; simp, h2, fun u hu => ?_⟩
    rcases List.mem_append.1 hu with hu | hu
    · exact h3 u hu
    · rw [List.mem_singleton] at hu; subst hu; exact ho

theorem Off.queued {k : Nat} {w : Wait} (h : Off k w) : w.queuedAt k = false := by
  cases hq : w.queuedAt k with
  | false => rfl
  | true =>
    simp only [Wait.queuedAt, Bool.and_eq_true, beq_iff_eq] at hq
    have := h hq.1
    rw [hq.2] at this
    cases this

theorem Solo.count {k : Nat} {l : List Wait} (h : Solo k l) : l.countP (Wait.queuedAt k) ≤ 1 := by
  have key : ∀ l : List Wait, (∀ w ∈ l, Off k w) → l.countP (Wait.queuedAt k) = 0 := fun l hl =>
    List.countP_eq_zero.2 fun w hw => by rw [(hl w hw).queued]; simp
  rcases h with h1 | ⟨a, v, b, rfl, h2, h3⟩
  · rw [key l h1]; omega
  · rw [List.countP_append, List.countP_cons, key a h2, key b h3]
    split <;> omega

/-- What came is what was told, what is on its way, and what is kept. -/
def Sorted (k : Nat) (es : List Ev) (s : St) : Prop :=
  Solo k s.waits ∧ ∃ W, came k es = told k s ++ way k s ++ W ∧ ∀ n, W.count n = s.count k n

theorem Sorted.prefix {k : Nat} {es : List Ev} {s : St} (h : Sorted k es s) : told k s ++ way k s <+: came k es := by
  obtain ⟨-, W, h, -⟩ := h
  exact ⟨W, h.symm⟩

theorem deliver_off {k n : Nat} {l : List Nat} {w : Wait} (h : Off k w) : Off k (w.deliver n l) := by
  intro hk
  rw [deliver_set] at hk
  have := h hk
  unfold Wait.deliver
  rw [this]
  simp
  exact this

theorem deliver_word {k n : Nat} {l : List Nat} {w : Wait} (h : w.stage ≠ .queued ∨ w.set ≠ k ∨ n ∉ l) :
    (w.deliver n l).word k = w.word k := by
  unfold Wait.deliver
  split
  · rename_i h1
    rcases h with h | h | h
    · exact absurd h1.1 h
    · simp [Wait.word, h1.1, h]
    · exact absurd h1.2 h
  · rfl

theorem filterMap_map_eq {α β : Type} {f : α → Option β} {g : α → α} {l : List α} (h : ∀ x ∈ l, f (g x) = f x) :
    (l.map g).filterMap f = l.filterMap f := by
  induction l with
  | nil => rfl
  | cons x l ih =>
    simp only [List.map_cons, List.filterMap_cons, h x (List.mem_cons_self ..), ih fun y hy => h y (List.mem_cons_of_mem _ hy)]

/-- One coroutine waits at a time. -/
theorem Alone.solo {k : Nat} {es : List Ev} (hl : Legal {} es) (ha : Alone k es) : Solo k (St.run es).waits := by
  induction es using snoc_ind with
  | h0 => exact .inl fun w hw => by cases hw
  | h1 es e ih =>
    obtain ⟨hl', hc⟩ := legal_snoc hl
    have hs := ih hl' fun p q h => ha p (q ++ [e]) (by rw [h]; simp)
    have hw := fun (h : e = .wait k) => ha es [] (by rw [h])
    rw [run_snoc, step_can hc]
    generalize St.run es = s at *
    cases e with
    | add j m => exact hs
    | remove j m => exact hs
    | clear j => exact hs
    | signal m => exact hs.map fun w h1 => deliver_off h1
    | cancel j =>
      refine hs.map fun w h1 => ?_
      split
      · exact abort_off h1
      · exact h1
    | abort i =>
      simp only [St.act]
      split
      · rename_i w hwi; exact hs.set hwi abort_off
      · exact hs
    | drop i =>
      simp only [St.act]
      split
      · rename_i w hwi; exact hs.set hwi fun h1 h2 => abort_off h1 h2
      · exact hs
    | run i =>
      simp only [St.act, St.runWait]
      split
      · rename_i w hwi
        split
        · exact hs.set hwi fun _ _ => rfl
        · exact hs
      · exact hs
    | wait j =>
      have key : ∀ w : Wait, w.set = j → Solo k (s.waits ++ [w]) := by
        intro w hj
        by_cases hk : j = k
        · exact .inr ⟨s.waits, w, [], rfl, hw (by rw [hk]), by simp⟩
        · exact hs.append fun h1 => absurd (hj.symm.trans h1) hk
      simp only [St.act, St.wait]
      split
      · exact key _ rfl
      · exact key _ rfl

/-- Everything but a wait for this set keeps the order. -/
theorem Sorted.act {k : Nat} {es : List Ev} {s : St} (h : Sorted k es s) (hw : WF es s) {e : Ev}
    (ht : ¬ Trouble s e) (hk : e ≠ .wait k) : Sorted k (es ++ [e]) (s.act e) := by
  obtain ⟨hs, W, hc, hn⟩ := h
  cases e with
  | add j m => exact ⟨hs, W, by rw [came_snoc, List.append_nil]; exact hc, hn⟩
  | remove j m =>
    refine ⟨hs, W, by rw [came_snoc, List.append_nil]; exact hc, fun n => ?_⟩
    rw [hn]
    dsimp only [St.act]
    split
    · rename_i h1; obtain ⟨rfl, rfl⟩ := h1
      exact Classical.byContradiction fun h2 => ht h2
    · rfl
  | clear j =>
    refine ⟨hs, W, by rw [came_snoc, List.append_nil]; exact hc, fun n => ?_⟩
    rw [hn]
    dsimp only [St.act]
    split
    · rename_i h1; subst h1
      exact Classical.byContradiction fun h2 => ht ⟨n, h2⟩
    · rfl
  | cancel j =>
    refine ⟨hs.map fun w h1 => ?_, W, ?_, hn⟩
    · split
      · exact abort_off h1
      · exact h1
    · rw [came_snoc, List.append_nil]
      have : way k (s.act (.cancel j)) = way k s := by
        rw [way_eq, way_eq]
        refine filterMap_map_eq fun w _ => ?_
        split
        · exact abort_word k w
        · rfl
      rw [this]
      exact hc
  | abort i =>
    rw [Sorted, came_snoc, List.append_nil]
    simp only [St.act]
    split
    · rename_i w hwi
      refine ⟨hs.set hwi abort_off, W, ?_, hn⟩
      rw [way_eq, filterMap_set' _ _ _ _ _ hwi (abort_word k w)]
      exact hc
    · exact ⟨hs, W, hc, hn⟩
  | drop i =>
    rw [Sorted, came_snoc, List.append_nil]
    simp only [St.act]
    split
    · rename_i w hwi
      refine ⟨hs.set hwi (fun h1 h2 => abort_off h1 h2), W, ?_, hn⟩
      rw [way_eq, filterMap_set' _ _ _ _ _ hwi ?_]
      · exact hc
      · have h1 : ∀ n, w.stage ≠ .posted (.sig n) := fun n h1 => ht ⟨w, n, hwi, h1⟩
        have h2 : w.word k = none := by
          unfold Wait.word
          split
          · rename_i h3; exact absurd h3 (h1 _)
          · rfl
        rw [h2]
        unfold Wait.word
        split
        · simp
        · rfl
    · exact ⟨hs, W, hc, hn⟩
  | run i =>
    rw [Sorted, came_snoc, List.append_nil]
    simp only [St.act, St.runWait]
    split
    · rename_i w hwi
      split
      · rename_i o ho
        refine ⟨hs.set hwi (fun _ _ => rfl), W, ?_, hn⟩
        have hdone : Wait.word k { w with stage := .done } = none := rfl
        cases hword : w.word k with
        | none =>
          have h1 : way k (s.finish i w o) = way k s := by
            rw [way_eq]; simp only [St.finish]; rw [filterMap_set' _ _ _ _ _ hwi (by rw [hdone, hword])]; rfl
          have h2 : told k (s.finish i w o) = told k s := by
            simp only [told, St.finish]
            cases hd : w.dropped with
            | true => simp
            | false =>
              simp only [Bool.false_eq_true, if_false, List.filterMap_append]
              cases o with
              | aborted => simp
              | sig n =>
                have : w.set ≠ k := fun hk => by simp [Wait.word, ho, hk, hd] at hword
                simp [this]
          rw [h1, h2]
          exact hc
        | some n =>
          have h1 : w.set = k ∧ w.dropped = false ∧ o = .sig n := by
            unfold Wait.word at hword
            rw [ho] at hword
            cases o with
            | aborted => cases hword
            | sig m =>
              dsimp only at hword
              split at hword
              · rename_i h1; cases hword; exact ⟨h1.1, h1.2, rfl⟩
              · cases hword
          obtain ⟨h1, h2, rfl⟩ := h1
          have h3 : told k (s.finish i w (.sig n)) = told k s ++ [n] := by
            simp [told, St.finish, h2, h1, List.filterMap_append]
          have h4 : way k s = [n] ∧ way k (s.finish i w (.sig n)) = [] := by
            rw [way_eq, way_eq]
            simp only [St.finish]
            rcases hs with h5 | ⟨a, v, b, h5, h6, h7⟩
            · rw [(h5 w (List.mem_of_getElem? hwi)).word] at hword; cases hword
            · rw [h5] at hwi ⊢
              rcases Nat.lt_trichotomy i a.length with hlt | rfl | hgt
              · rw [List.getElem?_append_left hlt] at hwi
                rw [(h6 w (List.mem_of_getElem? hwi)).word] at hword; cases hword
              · simp at hwi
                subst hwi
                rw [List.set_append_right _ _ (Nat.le_refl _), Nat.sub_self]
                simp only [List.set_cons_zero, List.filterMap_append, List.filterMap_cons, word_off h6, word_off h7, hdone, hword]
                simp
              · rw [List.getElem?_append_right (Nat.le_of_lt hgt)] at hwi
                obtain ⟨j, hj⟩ : ∃ j, i - a.length = j + 1 := ⟨i - a.length - 1, by omega⟩
                rw [hj] at hwi
                rw [(h7 w (List.mem_of_getElem? (by simpa using hwi))).word] at hword; cases hword
          rw [h3, h4.2, hc, h4.1]
          simp
      · exact ⟨hs, W, hc, hn⟩
    · exact ⟨hs, W, hc, hn⟩
  | wait j =>
    have hj : j ≠ k := fun h1 => hk (by rw [h1])
    rw [Sorted, came_snoc, List.append_nil]
    have key : ∀ w : Wait, w.set = j → Solo k (s.waits ++ [w]) ∧ (s.waits ++ [w]).filterMap (Wait.word k) = way k s := by
      intro w hwj
      have ho : Off k w := fun h1 => absurd (hwj.symm.trans h1) hj
      exact ⟨hs.append ho, by rw [List.filterMap_append, way_eq, word_off (l := [w]) (by simpa using ho), List.append_nil]⟩
    simp only [St.act, St.wait]
    split
    · refine ⟨(key _ rfl).1, W, ?_, fun n => ?_⟩
      · rw [way_eq, (key _ rfl).2]; exact hc
      · rw [hn]; dsimp only; rw [if_neg fun h1 => hj h1.1.symm]
    · refine ⟨(key _ rfl).1, W, ?_, hn⟩
      rw [way_eq, (key _ rfl).2]; exact hc
  | signal m =>
    have hsolo : Solo k (s.act (.signal m)).waits := hs.map fun w h1 => deliver_off h1
    by_cases hr : m ∈ s.regs k
    · rw [Sorted, came_snoc]
      dsimp only
      rw [if_pos ((hw.regs k m).1 hr)]
      refine ⟨hsolo, ?_⟩
      by_cases hq : s.waits.any (Wait.queuedAt k) = false
      · have h1 : way k (s.act (.signal m)) = way k s := by
          rw [way_eq, way_eq]
          refine filterMap_map_eq fun w hwm => deliver_word ?_
          have := (List.any_eq_false.1 hq) w hwm
          simp [Wait.queuedAt] at this
          by_cases h2 : w.set = k
          · exact .inl (this h2)
          · exact .inr (.inl h2)
        refine ⟨W ++ [m], ?_, fun n => ?_⟩
        · rw [h1, hc, ← List.append_assoc]; rfl
        · rw [List.count_append, hn]
          simp only [St.act, St.signal, hr, hq]
          by_cases h2 : n = m
          · subst h2; simp
          · simp [h2, Ne.symm h2]
      · have hq : s.waits.any (Wait.queuedAt k) = true := by simpa using hq
        obtain ⟨w, hwm, hwq⟩ := List.any_eq_true.1 hq
        simp only [Wait.queuedAt, Bool.and_eq_true, beq_iff_eq] at hwq
        have h0 : ∀ n, s.count k n = 0 := fun n =>
          Classical.byContradiction fun h1 => hw.awake k n h1 w hwm hwq.1 hwq.2
        have hW : W = [] := by
          cases W with
          | nil => rfl
          | cons n W => have := hn n; rw [h0] at this; simp at this
        subst hW
        refine ⟨[], ?_, fun n => ?_⟩
        · have hd : w.dropped = false := by
            cases hd : w.dropped with
            | false => rfl
            | true => exact absurd hwq.2 (hw.dropped w hwm hd)
          have h4 : way k s = [] ∧ way k (s.act (.signal m)) = [m] := by
            rw [way_eq, way_eq]
            rcases hs with h5 | ⟨a, v, b, h5, h6, h7⟩
            · have := h5 w hwm hwq.1; rw [hwq.2] at this; cases this
            · have hv : v = w := by
                rw [h5] at hwm
                rcases List.mem_append.1 hwm with h8 | h8
                · have := h6 w h8 hwq.1; rw [hwq.2] at this; cases this
                · rcases List.mem_cons.1 h8 with h8 | h8
                  · exact h8.symm
                  · have := h7 w h8 hwq.1; rw [hwq.2] at this; cases this
              subst hv
              have hb : ∀ l : List Wait, (∀ u ∈ l, Off k u) →
                  (l.map fun u => u.deliver m (s.regs u.set)).filterMap (Wait.word k) = [] := fun l hl =>
                word_off fun u hu => by
                  obtain ⟨u', hu', rfl⟩ := List.mem_map.1 hu
                  exact deliver_off (hl u' hu')
              have hw1 : v.word k = none := by simp [Wait.word, hwq.2]
              have hw2 : (v.deliver m (s.regs v.set)).word k = some m := by
                simp [Wait.deliver, hwq.1, hwq.2, hr, Wait.word, hd]
              simp only [St.act, St.signal, h5, List.map_append, List.map_cons, List.filterMap_append, List.filterMap_cons,
                word_off h6, word_off h7, hb a h6, hb b h7, hw1, hw2]
              simp
          rw [h4.2, hc, h4.1]
          simp only [List.append_nil]
          rfl
        · simp only [St.act, St.signal, hq]
          simp [h0]
    · rw [Sorted, came_snoc]
      dsimp only
      rw [if_neg fun h1 => hr ((hw.regs k m).2 h1), List.append_nil]
      refine ⟨hsolo, W, ?_, fun n => ?_⟩
      · have h1 : way k (s.act (.signal m)) = way k s := by
          rw [way_eq, way_eq]
          refine filterMap_map_eq fun w hwm => deliver_word ?_
          by_cases h2 : w.set = k
          · exact .inr (.inr (by rw [h2]; exact hr))
          · exact .inr (.inl h2)
        rw [h1]
        exact hc
      · rw [hn]
        simp only [St.act, St.signal]
        rw [if_neg fun h1 => hr h1.2.1]

/-- The signal a wait takes is the lowest of those that are kept. -/
theorem lowest {es : List Ev} {s : St} (hw : WF es s) {k n : Nat}
    (h : ((s.regs k).find? fun n => decide (0 < s.count k n)) = some n) : s.count k n ≠ 0 ∧ ∀ m, s.count k m ≠ 0 → n ≤ m := by
  have h1 : 0 < s.count k n := by simpa using List.find?_some h
  refine ⟨by omega, fun m hm => ?_⟩
  obtain ⟨-, a, b, h2, h3⟩ := List.find?_eq_some_iff_append.1 h
  have h4 := hw.count k m hm
  have h5 := hw.sorted k
  rw [h2] at h4 h5
  rcases List.mem_append.1 h4 with h4 | h4
  · have := h3 m h4
    simp at this
    exact absurd this hm
  · rcases List.mem_cons.1 h4 with rfl | h4
    · exact Nat.le_refl _
    · have := (List.pairwise_cons.1 (List.pairwise_append.1 h5).2.1).1 m h4
      omega

/-- The order at the beginning of a wait. -/
theorem Sorted.wait {k : Nat} {es : List Ev} (h : Sorted k es (St.run es)) (hw : WF es (St.run es))
    (ha : ∀ w ∈ (St.run es).waits, w.set = k → w.stage = .done) :
    ((told k ((St.run es).act (.wait k)) ++ way k ((St.run es).act (.wait k))) <+: came k (es ++ [.wait k]) →
      ∀ n r, untold k es = n :: r → ∀ m ∈ r, n ≤ m) ∧
    ((∀ n r, untold k es = n :: r → ∀ m ∈ r, n ≤ m) → Sorted k (es ++ [.wait k]) ((St.run es).act (.wait k))) := by
  obtain ⟨hs, W, hc, hn⟩ := h
  have hway : way k (St.run es) = [] := by rw [way_eq]; exact word_off ha
  rw [hway, List.append_nil] at hc
  have hun : untold k es = W := by simp [untold, hc]
  rw [hun, Sorted, came_snoc, List.append_nil]
  generalize St.run es = s at *
  have hsolo : ∀ w : Wait, Solo k (s.waits ++ [w]) := fun w => .inr ⟨s.waits, w, [], rfl, ha, by simp⟩
  simp only [St.act, St.wait]
  split
  · rename_i n hf
    obtain ⟨h1, h2⟩ := lowest hw hf
    have ht : told k { s with
        waits := s.waits ++ [{ set := k, stage := .posted (.sig n) }]
        count := fun k' m => if k' = k ∧ m = n then s.count k' m - 1 else s.count k' m } = told k s := rfl
    have hy : way k { s with
        waits := s.waits ++ [{ set := k, stage := .posted (.sig n) }]
        count := fun k' m => if k' = k ∧ m = n then s.count k' m - 1 else s.count k' m } = [n] := by
      rw [way_eq] at hway ⊢
      simp only [List.filterMap_append, hway]
      simp [Wait.word]
    rw [ht, hy, hc]
    have hmem : ∀ m, m ∈ W ↔ s.count k m ≠ 0 := fun m => by rw [← hn, Ne, List.count_eq_zero, Classical.not_not]
    constructor
    · intro hp a r hW m hm
      rw [List.prefix_append_right_inj] at hp
      rw [hW, List.cons_prefix_cons] at hp
      rw [← hp.1]
      exact h2 m ((hmem m).1 (by rw [hW]; exact List.mem_cons_of_mem _ hm))
    · intro hp
      refine ⟨hsolo _, ?_⟩
      cases W with
      | nil => exact absurd ((hmem n).2 h1) (by simp)
      | cons a r =>
        have hle := hp a r rfl
        have han : a = n := by
          rcases List.mem_cons.1 ((hmem n).2 h1) with rfl | h3
          · rfl
          · have h4 := hle n h3
            have h5 := h2 a ((hmem a).1 (List.mem_cons_self ..))
            omega
        subst han
        refine ⟨r, by simp, fun m => ?_⟩
        have := hn m
        rw [List.count_cons] at this
        dsimp only
        by_cases h3 : m = a
        · subst h3; simp at this ⊢; omega
        · rw [if_neg fun h4 => h3 h4.2]
          simp [Ne.symm h3] at this
          exact this
  · rename_i hf
    have hz : ∀ m, s.count k m = 0 := fun m => by
      refine Classical.byContradiction fun h1 => ?_
      have := List.find?_eq_none.1 hf m (hw.count k m h1)
      simp at this
      exact h1 this
    have hW : W = [] := by
      cases W with
      | nil => rfl
      | cons n W => have := hn n; rw [hz] at this; simp at this
    subst hW
    refine ⟨fun _ n r h1 => (by cases h1), fun _ => ⟨hsolo _, [], ?_, fun m => hn m⟩⟩
    have hy : way k { s with waits := s.waits ++ [{ set := k }] } = [] := by
      rw [way_eq] at hway ⊢
      simp only [List.filterMap_append, hway]
      simp [Wait.word]
    rw [hy, hc]
    simp only [List.append_nil]
    rfl

end Cobalt.SigSet
