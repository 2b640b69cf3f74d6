import Verif.Net.Tree
/-! Property C111: a network of coroutines and channels without cycles does not get stuck. -/
namespace Cobalt.Net

/-- **C111**: if the network has no cycles and comes to rest, then all coroutines have stopped, or there is one that
waits for a coroutine that has stopped. -/
theorem C111_stuck (N : Prog) (hN : N.proper) (par kid : Nat → Nat) (hF : N.forest par kid) (cap : Nat → Nat)
    (es : List Ev) (hr : (run N cap es).rest N) :
    (∀ p, N.act p ((run N cap es).hist p) = .stop) ∨
    ∃ p q c, N.act q ((run N cap es).hist q) = .stop ∧
      (N.act p ((run N cap es).hist p) = .read c ∧ N.wr c = q ∨
        ∃ v, N.act p ((run N cap es).hist p) = .write c v ∧ N.rd c = q) := by
  apply Classical.byContradiction
  intro hno
  obtain ⟨h1, h2⟩ := not_or.1 hno
  -- everybody who has not stopped waits for somebody who has not
  have next : ∀ p, N.act p ((run N cap es).hist p) ≠ .stop →
      ∃ q c, waits N (run N cap es) p q c ∧ N.act q ((run N cap es).hist q) ≠ .stop := by
    intro p hp
    have hw : ∃ q c, waits N (run N cap es) p q c := by
      cases ha : N.act p ((run N cap es).hist p) with
      | read c => exact ⟨_, c, .inl ⟨ha, rfl⟩⟩
      | write c v => exact ⟨_, c, .inr ⟨v, ha, rfl⟩⟩
      | stop => exact absurd ha hp
      | close c =>
        rcases C110_why N hN cap es hr p with h | ⟨c', h, -⟩ | ⟨c', v, h, -⟩ <;> rw [ha] at h <;> cases h
    obtain ⟨q, c, hw⟩ := hw
    refine ⟨q, c, hw, fun hs => h2 ⟨p, q, c, hs, hw⟩⟩
  -- nobody far out does anything
  have far : ∀ p, N.act p ((run N cap es).hist p) ≠ .stop → p < bound es := by
    intro p hp
    apply Classical.byContradiction
    intro h
    exact hp (hr.2 p (untouched N cap es p (bound_spec es p (by omega))).2)
  -- nobody waits for a child
  have down : ∀ n p q c, bound es - q ≤ n → waits N (run N cap es) p q c → q = kid c → p = par (kid c) →
      N.act q ((run N cap es).hist q) ≠ .stop → False := by
    intro n
    induction n with
    | zero =>
      intro p q c hn hw hq hp hs
      have := far q hs; omega
    | succ n ih =>
      intro p q c hn hw hq hp hs
      have hlt := hF.less c (waits_used hw)
      obtain ⟨r, c', hw', hs'⟩ := next q hs
      rcases waits_edge hN hF hw' with ⟨a, b⟩ | ⟨a, b⟩
      · have hc : c' = c := hF.one _ _ (waits_used hw') (waits_used hw) (a.symm.trans hq)
        rw [hc] at hw'
        exact waits_back hN hr hw hw' (by omega)
      · have hlt' := hF.less c' (waits_used hw')
        exact ih q r c' (by omega) hw' a b hs'
  -- nobody waits for its parent
  have up : ∀ p, N.act p ((run N cap es).hist p) ≠ .stop → False := by
    intro p
    induction p using Nat.strongRecOn with
    | _ p ih =>
      intro hs
      obtain ⟨q, c, hw, hs'⟩ := next p hs
      rcases waits_edge hN hF hw with ⟨a, b⟩ | ⟨a, b⟩
      · have hlt := hF.less c (waits_used hw)
        exact ih q (by omega) hs'
      · exact down _ p q c (Nat.le_refl _) hw a b hs'
  exact h1 fun p => Classical.byContradiction (up p)

/-- **C111**, the main statement: if the network has no cycles, every coroutine closes the channels it writes to before
it stops and reads the others to the end, then whenever the network comes to rest, all coroutines have stopped: none
waits for ever, whatever the limits of the channels are. -/
theorem C111_finishes (N : Prog) (hN : N.proper) (par kid : Nat → Nat) (hF : N.forest par kid) (hP : N.polite)
    (cap : Nat → Nat) (es : List Ev) (hr : (run N cap es).rest N) (p : Nat) :
    N.act p ((run N cap es).hist p) = .stop := by
  rcases C111_stuck N hN par kid hF cap es hr with h | ⟨p', q, c, hs, hw⟩
  · exact h p
  · exfalso
    rcases hw with ⟨h1, h2⟩ | ⟨v, h1, h2⟩
    · have h3 := (hP q _ (C110_results N hN cap es q) hs c ⟨_, _, .inl h1⟩).1 h2
      rcases C110_why N hN cap es hr p' with h | ⟨c', h, h4, -⟩ | ⟨c', v, h, -⟩
      · rw [h1] at h; cases h
      · rw [h1] at h; cases h
        rw [h2] at h4
        exact h4 h3
      · rw [h1] at h; cases h
    · have h3 := (hP q _ (C110_results N hN cap es q) hs c ⟨_, _, .inr ⟨v, h1⟩⟩).2 h2
      obtain ⟨k, e, h4, h5⟩ := C110_stream N hN cap es c q p' h2 (hN.write _ _ _ _ h1)
      have he : e ≠ 0 := by
        intro he
        rw [h4, he, List.replicate_zero, List.append_nil, List.mem_map] at h3
        obtain ⟨x, -, h3⟩ := h3
        cases h3
      rcases C110_why N hN cap es hr p' with h | ⟨c', h, -⟩ | ⟨c', v', h, h6, -⟩
      · rw [h1] at h; cases h
      · rw [h1] at h; cases h
      · rw [h1] at h; cases h
        exact h6 (h5 he).1

/-- **C111**: such a network computes the same with any limits of the channels: buffers only change how far a coroutine
gets ahead of another. -/
theorem C111_limits (N : Prog) (hN : N.proper) (par kid : Nat → Nat) (hF : N.forest par kid) (hP : N.polite)
    (cap cap' : Nat → Nat) (es es' : List Ev) (hr : (run N cap es).rest N) (hr' : (run N cap' es').rest N) (p : Nat) :
    (run N cap es).hist p = (run N cap' es').hist p := by
  have h1 := stop_max hN (C111_finishes N hN par kid hF hP cap es hr p) (cap' := cap') (es' := es')
  have h2 := stop_max hN (C111_finishes N hN par kid hF hP cap' es' hr' p) (cap' := cap) (es' := es)
  exact h2.eq_of_length (Nat.le_antisymm h2.length_le h1.length_le)

/-- **C111**: … and if it comes to rest with some limits, then with any others too, after boundedly many steps. -/
theorem C111_always (N : Prog) (hN : N.proper) (par kid : Nat → Nat) (hF : N.forest par kid) (hP : N.polite)
    (cap cap' : Nat → Nat) (es : List Ev) (hr : (run N cap es).rest N) :
    (∃ m, ∀ es', (St.init cap').usefuls N es' → es'.length ≤ m) ∧
    ∀ es', ∃ more, (run N cap' (es' ++ more)).rest N ∧
      ∀ p, (run N cap' (es' ++ more)).hist p = (run N cap es).hist p := by
  have hW := Within.of_stopped hN cap' (C111_finishes N hN par kid hF hP cap es hr)
  refine ⟨⟨_, fun es' hu => Nat.le_trans (Nat.le_add_right _ _) (usefuls_bound hN hW [] es' hu)⟩, fun es' => ?_⟩
  obtain ⟨more, hm⟩ := reaches hN hW es'
  exact ⟨more, hm, fun p => (C111_limits N hN par kid hF hP cap cap' _ _ hr hm p).symm⟩

/-! ## Example -/

/-- Coroutine 0 reads channel 0 to its end and then channel 1; coroutines 1 and 2 write to them, two values each. -/
def join : Prog where
  act := fun p h =>
    if p = 0 then (match h.count .broken with | 0 => .read 0 | 1 => .read 1 | _ => .stop)
    else if p ≤ 2 then
      (match h.length with
        | 0 => .write (p - 1) (10 * p)
        | 1 => .write (p - 1) (10 * p + 1)
        | 2 => .close (p - 1)
        | _ => .stop)
    else .stop
  rd := fun _ => 0
  wr := fun c => c + 1

theorem join_proper : join.proper := by
  constructor
  all_goals
    intro p h c
    simp only [join]
    repeat' split
    all_goals (intros; rename_i hh; cases hh <;> first | rfl | assumption | omega)

theorem join_forest : join.forest (fun _ => 0) (fun c => c + 1) :=
  ⟨fun _ _ => .inr ⟨rfl, rfl⟩, fun _ _ => Nat.succ_pos _, fun _ _ _ _ h => Nat.succ.inj h⟩

theorem join_used {c : Nat} (h : join.used c) : c = 0 ∨ c = 1 := by
  obtain ⟨p, h, h1 | ⟨v, h1⟩⟩ := h
  all_goals
    simp only [join] at h1
    repeat' split at h1
    all_goals (cases h1 <;> omega)

/-- The reader has been at the end of the first channel, and then of the second. -/
theorem join_ends (h : List Res) : (1 ≤ h.count .broken → Res.broken ∈ received (join.act 0) 0 h) ∧
    (2 ≤ h.count .broken → Res.broken ∈ received (join.act 0) 1 h) := by
  induction h using snoc_ind with
  | h0 => simp
  | h1 h x ih =>
    rw [received_snoc, received_snoc, List.count_append]
    by_cases hx : x = .broken
    · subst hx
      have e : [Res.broken].count .broken = 1 := rfl
      rw [e]
      refine ⟨fun _ => ?_, fun h2 => ?_⟩
      · by_cases h0 : h.count .broken = 0
        · have : join.act 0 h = .read 0 := by simp [join, h0]
          rw [if_pos this]; simp
        · exact List.mem_append_left _ (ih.1 (by omega))
      · by_cases h0 : h.count .broken = 1
        · have : join.act 0 h = .read 1 := by simp [join, h0]
          rw [if_pos this]; simp
        · exact List.mem_append_left _ (ih.2 (by omega))
    · have e : [x].count .broken = 0 := List.count_eq_zero.2 (by simpa using fun h => hx h.symm)
      rw [e]
      exact ⟨fun h1 => List.mem_append_left _ (ih.1 (by omega)), fun h1 => List.mem_append_left _ (ih.2 (by omega))⟩

theorem join_polite : join.polite := by
  intro p h _ hs c hu
  refine ⟨fun hw => ?_, fun hr => ?_⟩
  · have hc := join_used hu
    have hp : p = c + 1 := hw.symm
    subst hp
    have hl : 3 ≤ h.length := by
      apply Classical.byContradiction
      intro hl
      have : h.length = 0 ∨ h.length = 1 ∨ h.length = 2 := by omega
      have h2 : c + 1 ≤ 2 := by omega
      rcases this with e | e | e <;> simp [join, h2, e] at hs
    unfold done
    rw [List.mem_map]
    refine ⟨2, List.mem_range.2 (by omega), ?_⟩
    have e : (h.take 2).length = 2 := by rw [List.length_take]; omega
    have h2 : c + 1 ≤ 2 := by omega
    simp only [join, e, if_pos h2]
    rw [if_neg (by omega)]
    rfl
  · have hp : p = 0 := hr.symm
    subst hp
    have hl : 2 ≤ h.count .broken := by
      apply Classical.byContradiction
      intro hl
      have : h.count .broken = 0 ∨ h.count .broken = 1 := by omega
      rcases this with e | e <;> simp [join, e] at hs
    rcases join_used hu with rfl | rfl
    · exact (join_ends h).1 (by omega)
    · exact (join_ends h).2 hl

def joinEvs : List Ev :=
  [.go 2 false, .go 2 false, .go 2 false, .go 1 false, .go 1 false, .go 1 false, .go 0 false, .go 0 false, .go 0 false,
   .go 0 false, .go 0 false, .go 0 false]

theorem join_rest : (run join (fun _ => 2) joinEvs).rest join := by
  refine ⟨fun c => ?_, fun p hp => ?_⟩
  · match c with
    | 0 => rfl
    | 1 => rfl
    | c + 2 => rfl
  · match p with
    | 0 => rfl
    | 1 => rfl
    | 2 => rfl
    | p + 3 => simp [join]

/-- With limits of 2 the writers finish before the reader begins. With any others the outcome is the same. -/
example (cap : Nat → Nat) (es : List Ev) : ∃ more,
    (run join cap (es ++ more)).hist 0 = [.val 10, .val 11, .broken, .val 20, .val 21, .broken] := by
  obtain ⟨more, -, h⟩ := (C111_always join join_proper _ _ join_forest join_polite (fun _ => 2) cap joinEvs join_rest).2 es
  exact ⟨more, h 0⟩

/-! ## What is needed -/

/-- Each of two coroutines reads to the end what the other writes and then closes the channel the other reads. So they
wait for each other. -/
def ring : Prog where
  act := fun p h =>
    if p < 2 then
      (if Res.broken ∉ h then .read p else if h.length = h.idxOf .broken + 1 then .close (1 - p) else .stop)
    else .stop
  rd := fun c => c
  wr := fun c => 1 - c

theorem ring_proper : ring.proper := by
  constructor
  all_goals
    intro p h c
    simp only [ring]
    repeat' split
    all_goals (intros; rename_i hh; cases hh <;> first | rfl | omega)

theorem ring_idle (p : Nat) (h : List Res) : ring.act (p + 2) h = .stop := by
  have : ¬ p + 2 < 2 := by omega
  simp only [ring, if_neg this]

theorem ring_polite : ring.polite := by
  intro p h _ hs c hu
  have hc : c < 2 := by
    obtain ⟨p, h, h1 | ⟨v, h1⟩⟩ := hu
    all_goals
      simp only [ring] at h1
      repeat' split at h1
      all_goals (cases h1 <;> assumption)
  have key : p < 2 → Res.broken ∈ h ∧ h.idxOf .broken + 1 < h.length := by
    intro hp
    simp only [ring, if_pos hp] at hs
    split at hs
    · cases hs
    · rename_i hb
      have hb := Decidable.not_not.1 hb
      split at hs
      · cases hs
      · have := List.idxOf_lt_length_of_mem hb
        exact ⟨hb, by omega⟩
  have idx : ∀ a b : List Res, Res.broken ∉ a → (a ++ Res.broken :: b).idxOf .broken = a.length := by
    intro a b hn
    rw [List.idxOf_append_of_notMem hn, List.idxOf_cons_self, Nat.add_zero]
  refine ⟨fun hw => ?_, fun hr => ?_⟩
  · have hp : p = 1 - c := hw.symm
    have hp2 : p < 2 := by omega
    obtain ⟨k1, k2⟩ := key hp2
    obtain ⟨a, b, rfl, hn⟩ := List.eq_append_cons_of_mem k1
    rw [idx a b hn] at k2
    unfold done
    rw [List.mem_map]
    refine ⟨a.length + 1, List.mem_range.2 k2, ?_⟩
    have e : (a ++ Res.broken :: b).take (a.length + 1) = a ++ [.broken] := by
      rw [List.take_append, List.take_of_length_le (by omega)]; simp
    rw [e]
    simp only [ring, if_pos hp2]
    rw [if_neg (by simp), idx a [] hn, if_pos (by simp)]
    congr 1; omega
  · have hp : p = c := hr.symm
    subst hp
    obtain ⟨k1, k2⟩ := key hc
    obtain ⟨a, b, rfl, hn⟩ := List.eq_append_cons_of_mem k1
    unfold received
    rw [List.mem_filterMap]
    refine ⟨a.length, List.mem_range.2 (by simp), ?_⟩
    rw [List.take_left, if_pos (by simp only [ring, if_pos hc]; rw [if_pos hn])]
    simp

/-- **C111** needs that there are no cycles: here all wait. -/
theorem C111_cycle_needed : ∃ (N : Prog) (cap : Nat → Nat) (es : List Ev),
    N.proper ∧ N.polite ∧ (run N cap es).rest N ∧ N.act 0 ((run N cap es).hist 0) = .read 0 ∧
      N.act 1 ((run N cap es).hist 1) = .read 1 := by
  refine ⟨ring, fun _ => 0, [.go 1 false, .go 0 false], ring_proper, ring_polite, ⟨fun c => ?_, fun p hp => ?_⟩, by decide,
    by decide⟩
  · match c with
    | 0 => rfl
    | 1 => rfl
    | c + 2 => rfl
  · match p with
    | 0 => cases hp
    | 1 => cases hp
    | p + 2 => exact ring_idle _ _

/-- Coroutine 0 writes twice and coroutine 1 reads once. -/
def rude : Prog where
  act := fun p h =>
    if p = 0 then (match h.length with | 0 => .write 0 1 | 1 => .write 0 2 | 2 => .close 0 | _ => .stop)
    else if p = 1 then (match h.length with | 0 => .read 0 | _ => .stop)
    else .stop
  rd := fun _ => 1
  wr := fun _ => 0

theorem rude_forest : rude.proper ∧ rude.forest (fun _ => 0) (fun c => c + 1) := by
  refine ⟨?_, ?_⟩
  · constructor
    all_goals
      intro p h c
      simp only [rude]
      repeat' split
      all_goals (intros; rename_i hh; cases hh <;> first | rfl | omega)
  · have hu : ∀ c, rude.used c → c = 0 := by
      rintro c ⟨p, h, h1 | ⟨v, h1⟩⟩
      all_goals
        simp only [rude] at h1
        repeat' split at h1
        all_goals (cases h1 <;> rfl)
    refine ⟨fun c h => ?_, fun _ _ => Nat.succ_pos _, fun _ _ h h' _ => (hu _ h).trans (hu _ h').symm⟩
    rw [hu c h]; exact .inl ⟨rfl, rfl⟩

/-- **C111** needs that the coroutines read to the end: here the writer waits for ever. -/
theorem C111_polite_needed : ∃ (N : Prog) (par kid cap : Nat → Nat) (es : List Ev),
    N.proper ∧ N.forest par kid ∧ (run N cap es).rest N ∧ N.act 0 ((run N cap es).hist 0) = .write 0 2 := by
  refine ⟨rude, _, _, fun _ => 0, [.go 1 false, .go 0 false, .run 0 0, .go 0 false], rude_forest.1, rude_forest.2,
    ⟨fun c => ?_, fun p hp => ?_⟩, by decide⟩
  · match c with
    | 0 => rfl
    | c + 1 => rfl
  · match p with
    | 0 => cases hp
    | 1 => rfl
    | p + 2 => rfl

end Cobalt.Net
