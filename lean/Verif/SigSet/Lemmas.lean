import Verif.SigSet.Spec
namespace Cobalt.SigSet

theorem run_snoc (es : List Ev) (e : Ev) : St.run (es ++ [e]) = (St.run es).step e := by
  simp [St.run, St.steps]

theorem snoc_ind {P : List Ev → Prop} (h0 : P []) (h1 : ∀ l x, P l → P (l ++ [x])) (l : List Ev) : P l := by
  have : ∀ n (l : List Ev), l.length = n → P l := by
    intro n
    induction n with
    | zero => intro l h; rw [List.length_eq_zero_iff.1 h]; exact h0
    | succ n ih =>
      intro l h
      rcases List.eq_nil_or_concat l with rfl | ⟨l', x, rfl⟩
      · exact h0
      · rw [List.concat_eq_append] at h ⊢
        exact h1 _ _ (ih l' (by simpa using h))
  exact this _ l rfl

theorem legal_append {s : St} {es es' : List Ev} : Legal s (es ++ es') ↔ Legal s es ∧ Legal (s.steps es) es' := by
  induction es generalizing s with
  | nil => simp [Legal, St.steps]
  | cons e es ih => simp only [List.cons_append, Legal, ih, St.steps, List.foldl_cons, and_assoc]

theorem legal_snoc {es : List Ev} {e : Ev} (h : Legal {} (es ++ [e])) : Legal {} es ∧ (St.run es).can e = true := by
  obtain ⟨h1, h2⟩ := legal_append.1 h
  exact ⟨h1, h2.1⟩

theorem step_can {s : St} {e : Ev} (h : s.can e = true) : s.step e = s.act e := by simp [St.step, h]

/-! ## Registrations -/

theorem mem_insert {n m : Nat} {l : List Nat} : m ∈ insert n l ↔ m = n ∨ m ∈ l := by
  induction l with
  | nil => simp [insert]
  | cons a l ih =>
    unfold insert
    split
    · simp
    · split
      · rename_i h; subst h; simp
      · simp only [List.mem_cons, ih]; grind

theorem insert_sorted {n : Nat} {l : List Nat} (h : l.Pairwise (· < ·)) : (insert n l).Pairwise (· < ·) := by
  induction l with
  | nil => simp [insert]
  | cons a l ih =>
    unfold insert
    rw [List.pairwise_cons] at h
    split
    · rename_i hlt
      refine List.pairwise_cons.2 ⟨fun b hb => ?_, List.pairwise_cons.2 h⟩
      rcases List.mem_cons.1 hb with rfl | hb
      · exact hlt
      · exact Nat.lt_trans hlt (h.1 b hb)
    · split
      · exact List.pairwise_cons.2 h
      · rename_i h1 h2
        refine List.pairwise_cons.2 ⟨fun b hb => ?_, ih h.2⟩
        rcases mem_insert.1 hb with rfl | hb
        · omega
        · exact h.1 b hb

theorem inSet_snoc (k n : Nat) (es : List Ev) (e : Ev) : inSet k n (es ++ [e]) =
    (match e with
    | .add k' n' => inSet k n es || (k' == k && n' == n)
    | .remove k' n' => inSet k n es && !(k' == k && n' == n)
    | .clear k' => inSet k n es && !(k' == k)
    | _ => inSet k n es) := by
  simp only [inSet, List.foldl_append, List.foldl_cons, List.foldl_nil]
  cases e <;> rfl

theorem came_snoc (k : Nat) (es : List Ev) (e : Ev) : came k (es ++ [e]) = came k es ++
    (match e with
    | .signal n => if inSet k n es then [n] else []
    | _ => []) := by
  simp only [came, List.length_append, List.length_singleton, List.range_succ, List.flatMap_append, List.flatMap_cons,
    List.flatMap_nil, List.append_nil]
  congr 1
  · simp only [List.flatMap]
    congr 1
    apply List.map_congr_left
    intro j hj
    have hj := List.mem_range.1 hj
    rw [List.getElem?_append_left hj, List.take_append_of_le_length (Nat.le_of_lt hj)]
  · simp
    cases e <;> rfl

/-! ## An invariant -/

structure WF (es : List Ev) (s : St) : Prop where
  regs : ∀ k n, n ∈ s.regs k ↔ inSet k n es = true
  sorted : ∀ k, (s.regs k).Pairwise (· < ·)
  count : ∀ k n, s.count k n ≠ 0 → n ∈ s.regs k
  /-- nobody waits while there is a signal -/
  awake : ∀ k n, s.count k n ≠ 0 → ∀ w ∈ s.waits, w.set = k → w.stage ≠ .queued
  /-- races drop only waits they have cancelled -/
  dropped : ∀ w ∈ s.waits, w.dropped = true → w.stage ≠ .queued

theorem abort_set (w : Wait) : w.abort.set = w.set := by unfold Wait.abort; split <;> rfl

theorem abort_dropped (w : Wait) : w.abort.dropped = w.dropped := by unfold Wait.abort; split <;> rfl

theorem abort_stage (w : Wait) : w.abort.stage ≠ .queued := by unfold Wait.abort; split <;> simp_all

theorem deliver_set (n : Nat) (l : List Nat) (w : Wait) : (w.deliver n l).set = w.set := by
  unfold Wait.deliver; split <;> rfl

theorem deliver_dropped (n : Nat) (l : List Nat) (w : Wait) : (w.deliver n l).dropped = w.dropped := by
  unfold Wait.deliver; split <;> rfl

theorem deliver_stage {n : Nat} {l : List Nat} {w : Wait} (h : (w.deliver n l).stage = .queued) :
    w.stage = .queued ∧ n ∉ l := by
  unfold Wait.deliver at h
  split at h
  · cases h
  · rename_i h1; exact ⟨h, fun h2 => h1 ⟨h, h2⟩⟩

/-- What an event does to the waits keeps the second half of the invariant, if counts do not grow for sets that wait. -/
theorem WF.act {es : List Ev} {s : St} (h : WF es s) (e : Ev) (hc : s.can e = true) : WF (es ++ [e]) (s.act e) := by
  obtain ⟨h1, h2, h3, h4, h5⟩ := h
  cases e with
  | add k n =>
    refine ⟨fun j m => ?_, fun j => ?_, fun j m hm => ?_, h4, h5⟩
    · rw [inSet_snoc]; dsimp only [St.act]
      split
      · rename_i e; subst e; rw [mem_insert, h1]; simp; grind
      · rename_i hne; rw [h1]; simp; intro hx; exact absurd hx.symm hne
    · dsimp only [St.act]; split
      · exact insert_sorted (h2 _)
      · exact h2 _
    · dsimp only [St.act]; split
      · exact mem_insert.2 (.inr (h3 _ _ hm))
      · exact h3 _ _ hm
  | remove k n =>
    refine ⟨fun j m => ?_, fun j => ?_, fun j m hm => ?_, fun j m hm => ?_, h5⟩
    · rw [inSet_snoc]; dsimp only [St.act]
      split
      · rename_i e; subst e; rw [List.mem_filter, h1]; simp; grind
      · rename_i hne; rw [h1]; simp; intro _; exact .inl fun hx => hne hx.symm
    · dsimp only [St.act]; split
      · exact (h2 _).filter _
      · exact h2 _
    · dsimp only [St.act] at hm ⊢
      split at hm
      · exact absurd rfl hm
      · rename_i hne
        split
        · rename_i e; rw [List.mem_filter]; exact ⟨h3 _ _ hm, by simp; exact fun hx => hne ⟨e, hx⟩⟩
        · exact h3 _ _ hm
    · dsimp only [St.act] at hm ⊢
      split at hm
      · exact absurd rfl hm
      · exact h4 _ _ hm
  | clear k =>
    refine ⟨fun j m => ?_, fun j => ?_, fun j m hm => ?_, fun j m hm => ?_, h5⟩
    · rw [inSet_snoc]; dsimp only [St.act]
      split
      · rename_i e; subst e; simp
      · rename_i hne; rw [h1]; simp; intro _ hx; exact hne hx.symm
    · dsimp only [St.act]; split
      · exact .nil
      · exact h2 _
    · dsimp only [St.act] at hm ⊢
      split at hm
      · exact absurd rfl hm
      · rename_i hne; rw [if_neg hne]; exact h3 _ _ hm
    · dsimp only [St.act] at hm ⊢
      split at hm
      · exact absurd rfl hm
      · exact h4 _ _ hm
  | cancel k =>
    refine ⟨fun j m => by rw [inSet_snoc]; exact h1 j m, h2, h3, fun j m hm w hw hs => ?_, fun w hw hd => ?_⟩
    all_goals
      obtain ⟨v, hv, rfl⟩ := List.mem_map.1 hw
      by_cases hk : v.set = k
      · rw [if_pos hk]; exact abort_stage v
      · rw [if_neg hk] at *
        first | exact h4 j m hm v hv hs | exact h5 v hv hd
  | signal n =>
    refine ⟨fun j m => by rw [inSet_snoc]; exact h1 j m, h2, fun j m hm => ?_, fun j m hm w hw hs hq => ?_, fun w hw hd hq => ?_⟩
    · dsimp only [St.act, St.signal] at hm ⊢
      split at hm
      · rename_i hx; rw [hx.1]; exact hx.2.1
      · exact h3 _ _ hm
    · dsimp only [St.act, St.signal] at hm hw
      obtain ⟨v, hv, rfl⟩ := List.mem_map.1 hw
      rw [deliver_set] at hs
      obtain ⟨h6, h7⟩ := deliver_stage hq
      rw [hs] at h7
      split at hm
      · rename_i hx; exact h7 hx.2.1
      · exact h4 _ _ hm v hv hs h6
    · dsimp only [St.act, St.signal] at hw
      obtain ⟨v, hv, rfl⟩ := List.mem_map.1 hw
      rw [deliver_dropped] at hd
      exact h5 v hv hd (deliver_stage hq).1
  | wait k =>
    have h1' : ∀ j m, m ∈ s.regs j ↔ inSet j m (es ++ [.wait k]) = true := fun j m => by rw [inSet_snoc]; exact h1 j m
    dsimp only [St.act, St.wait]
    split
    · rename_i n hn
      refine ⟨h1', h2, fun j m hm => ?_, fun j m hm w hw hs => ?_, fun w hw hd => ?_⟩
      · dsimp only at hm
        split at hm
        · exact h3 j m (by omega)
        · exact h3 _ _ hm
      · rcases List.mem_append.1 hw with hw | hw
        · dsimp only at hm
          split at hm
          · exact h4 j m (by omega) w hw hs
          · exact h4 _ _ hm w hw hs
        · rw [List.mem_singleton] at hw; subst hw; simp
      · rcases List.mem_append.1 hw with hw | hw
        · exact h5 w hw hd
        · rw [List.mem_singleton] at hw; subst hw; simp
    · rename_i hn
      refine ⟨h1', h2, h3, fun j m hm w hw hs => ?_, fun w hw hd => ?_⟩
      · rcases List.mem_append.1 hw with hw | hw
        · exact h4 _ _ hm w hw hs
        · rw [List.mem_singleton] at hw; subst hw
          have := List.find?_eq_none.1 hn m (by have := h3 _ _ hm; simp at hs; rw [hs]; exact this)
          simp at hs
          subst hs
          simp at this
          exact absurd this hm
      · rcases List.mem_append.1 hw with hw | hw
        · exact h5 w hw hd
        · rw [List.mem_singleton] at hw; subst hw; simp at hd
  | abort i =>
    have h1' : ∀ j m, m ∈ s.regs j ↔ inSet j m (es ++ [.abort i]) = true := fun j m => by rw [inSet_snoc]; exact h1 j m
    dsimp only [St.act]
    split
    · rename_i w hw
      refine ⟨h1', h2, h3, fun j m hm v hv hs => ?_, fun v hv hd => ?_⟩
      all_goals
        rcases List.mem_or_eq_of_mem_set hv with hv | rfl
      · exact h4 _ _ hm v hv hs
      · exact abort_stage w
      · exact h5 v hv hd
      · exact abort_stage w
    · exact ⟨h1', h2, h3, h4, h5⟩
  | drop i =>
    have h1' : ∀ j m, m ∈ s.regs j ↔ inSet j m (es ++ [.drop i]) = true := fun j m => by rw [inSet_snoc]; exact h1 j m
    dsimp only [St.act]
    split
    · rename_i w hw
      refine ⟨h1', h2, h3, fun j m hm v hv hs => ?_, fun v hv hd => ?_⟩
      all_goals
        rcases List.mem_or_eq_of_mem_set hv with hv | rfl
      · exact h4 _ _ hm v hv hs
      · exact abort_stage w
      · exact h5 v hv hd
      · exact abort_stage w
    · exact ⟨h1', h2, h3, h4, h5⟩
  | run i =>
    have h1' : ∀ j m, m ∈ s.regs j ↔ inSet j m (es ++ [.run i]) = true := fun j m => by rw [inSet_snoc]; exact h1 j m
    dsimp only [St.act, St.runWait]
    split
    · split
      · refine ⟨h1', h2, h3, fun j m hm v hv hs => ?_, fun v hv hd => ?_⟩
        all_goals
          rcases List.mem_or_eq_of_mem_set hv with hv | rfl
        · exact h4 _ _ hm v hv hs
        · simp
        · exact h5 v hv hd
        · simp
      · exact ⟨h1', h2, h3, h4, h5⟩
    · exact ⟨h1', h2, h3, h4, h5⟩

theorem WF.run {es : List Ev} (hl : Legal {} es) : WF es (St.run es) := by
  induction es using snoc_ind with
  | h0 => exact ⟨fun _ _ => by simp [St.run, St.steps, inSet], fun _ => .nil, fun _ _ h => absurd rfl h, fun _ _ h => absurd rfl h,
      fun w hw => by cases hw⟩
  | h1 es e ih =>
    obtain ⟨h1, hc⟩ := legal_snoc hl
    rw [run_snoc, step_can hc]
    exact (ih h1).act e hc

end Cobalt.SigSet
