import Verif.Net.Meet2
import Verif.Net.BarSpec
/-! Helper: a barrier made of channels. -/
namespace Cobalt.Net
open Chan (upd)

theorem barrier_proper (n R : Nat) : (barrier n R).proper := by
  constructor
  all_goals
    intro p h c
    simp only [barrier, guest, host]
    intros
    grind

theorem act_guest {n R i : Nat} (hi : i < n) (h : List Res) : (barrier n R).act i h = guest R i h.length := by
  simp [barrier, hi]

theorem act_host (n R : Nat) (h : List Res) : (barrier n R).act n h = host n R h.length := by
  simp [barrier]

theorem barrier_open (n R p : Nat) (h : List Res) (c : Nat) : (barrier n R).act p h ≠ .close c := by
  simp only [barrier, guest, host]
  grind

theorem open_done (n R p : Nat) (h : List Res) (c : Nat) : Act.close c ∉ done ((barrier n R).act p) h := by
  unfold done
  rw [List.mem_map]
  rintro ⟨i, -, h⟩
  exact barrier_open _ _ _ _ _ h

/-! ## The order in which they meet -/

theorem arrive_step {n R r k : Nat} (hr : r < R) (hk : k < n) {H : Nat → List Res} (h : Meets (barrier n R) H)
    (h1 : (H k).length = 2 * r) (h2 : (H n).length = 2 * n * r + k) :
    ∃ H', Meets (barrier n R) H' ∧ (H' k).length = 2 * r + 1 ∧ (H' n).length = 2 * n * r + (k + 1) ∧
      ∀ p, p ≠ k → p ≠ n → H' p = H p := by
  have e : (2 * n * r + k) % (2 * n) = k := by
    rw [Nat.mul_add_mod]; exact Nat.mod_eq_of_lt (by omega)
  have lt : 2 * n * r + k < 2 * n * R := by
    have : 2 * n * (r + 1) ≤ 2 * n * R := Nat.mul_le_mul_left _ hr
    rw [Nat.mul_add] at this; omega
  refine ⟨_, .meet (p := n) (q := k) (c := 2 * k) (v := 0) h ?_ ?_ (open_done _ _ _ _ _), ?_, ?_, fun p h3 h4 => ?_⟩
  · rw [act_host, h2, host, if_pos lt, e, if_pos hk]
  · rw [act_guest hk, h1, guest, if_pos (by omega), if_pos (by omega)]
  · rw [upd_self]; simp [h1]
  · rw [upd_ne _ _ (by omega), upd_self]; simp [h2]; omega
  · rw [upd_ne _ _ h3, upd_ne _ _ h4]

theorem depart_step {n R r k : Nat} (hr : r < R) (hk : k < n) {H : Nat → List Res} (h : Meets (barrier n R) H)
    (h1 : (H k).length = 2 * r + 1) (h2 : (H n).length = 2 * n * r + (n + k)) :
    ∃ H', Meets (barrier n R) H' ∧ (H' k).length = 2 * (r + 1) ∧ (H' n).length = 2 * n * r + (n + (k + 1)) ∧
      ∀ p, p ≠ k → p ≠ n → H' p = H p := by
  have e : (2 * n * r + (n + k)) % (2 * n) = n + k := by
    rw [Nat.mul_add_mod]; exact Nat.mod_eq_of_lt (by omega)
  have lt : 2 * n * r + (n + k) < 2 * n * R := by
    have : 2 * n * (r + 1) ≤ 2 * n * R := Nat.mul_le_mul_left _ hr
    rw [Nat.mul_add] at this; omega
  refine ⟨_, .meet (p := k) (q := n) (c := 2 * k + 1) (v := 0) h ?_ ?_ (open_done _ _ _ _ _), ?_, ?_, fun p h3 h4 => ?_⟩
  · rw [act_guest hk, h1, guest, if_pos (by omega), if_neg (by omega)]
  · rw [act_host, h2, host, if_pos lt, e, if_neg (by omega), Nat.add_sub_cancel_left]
  · rw [upd_ne _ _ (by omega), upd_self]; simp [h1]; omega
  · rw [upd_self]; simp [h2]; omega
  · rw [upd_ne _ _ h4, upd_ne _ _ h3]

theorem arrive_all {n R r : Nat} (hr : r < R) {H : Nat → List Res} (h : Meets (barrier n R) H)
    (h1 : ∀ i, i < n → (H i).length = 2 * r) (h2 : (H n).length = 2 * n * r) (k : Nat) (hk : k ≤ n) :
    ∃ H', Meets (barrier n R) H' ∧ (∀ i, i < k → (H' i).length = 2 * r + 1) ∧
      (∀ i, k ≤ i → i < n → (H' i).length = 2 * r) ∧ (H' n).length = 2 * n * r + k := by
  induction k with
  | zero => exact ⟨H, h, fun i hi => absurd hi (by omega), fun i _ hi => h1 i hi, h2⟩
  | succ k ih =>
    obtain ⟨H1, a, b, c, d⟩ := ih (by omega)
    obtain ⟨H2, e, f, g, l⟩ := arrive_step hr (by omega : k < n) a (c k (Nat.le_refl _) (by omega)) d
    refine ⟨H2, e, fun i hi => ?_, fun i hi hn => ?_, g⟩
    · by_cases hik : i = k
      · subst hik; exact f
      · rw [l i hik (by omega)]; exact b i (by omega)
    · rw [l i (by omega) (by omega)]; exact c i (by omega) hn

theorem depart_all {n R r : Nat} (hr : r < R) {H : Nat → List Res} (h : Meets (barrier n R) H)
    (h1 : ∀ i, i < n → (H i).length = 2 * r + 1) (h2 : (H n).length = 2 * n * r + n) (k : Nat) (hk : k ≤ n) :
    ∃ H', Meets (barrier n R) H' ∧ (∀ i, i < k → (H' i).length = 2 * (r + 1)) ∧
      (∀ i, k ≤ i → i < n → (H' i).length = 2 * r + 1) ∧ (H' n).length = 2 * n * r + (n + k) := by
  induction k with
  | zero => exact ⟨H, h, fun i hi => absurd hi (by omega), fun i _ hi => h1 i hi, h2⟩
  | succ k ih =>
    obtain ⟨H1, a, b, c, d⟩ := ih (by omega)
    obtain ⟨H2, e, f, g, l⟩ := depart_step hr (by omega : k < n) a (c k (Nat.le_refl _) (by omega)) d
    refine ⟨H2, e, fun i hi => ?_, fun i hi hn => ?_, g⟩
    · by_cases hik : i = k
      · subst hik; exact f
      · rw [l i hik (by omega)]; exact b i (by omega)
    · rw [l i (by omega) (by omega)]; exact c i (by omega) hn

theorem rounds {n R : Nat} (r : Nat) (hr : r ≤ R) :
    ∃ H, Meets (barrier n R) H ∧ (∀ i, i < n → (H i).length = 2 * r) ∧ (H n).length = 2 * n * r := by
  induction r with
  | zero => exact ⟨_, .start, fun i _ => rfl, rfl⟩
  | succ r ih =>
    obtain ⟨H, a, b, c⟩ := ih (by omega)
    obtain ⟨H1, a1, b1, -, d1⟩ := arrive_all (by omega) a b c n (Nat.le_refl _)
    obtain ⟨H2, a2, b2, -, d2⟩ := depart_all (by omega) a1 b1 d1 n (Nat.le_refl _)
    refine ⟨H2, a2, b2, ?_⟩
    rw [d2, Nat.mul_add]; omega

/-! ## Counting -/

theorem cnt_le {g d : Nat → Nat} (g0 : g 0 = 0) (gs : ∀ t, g (t + 1) = g t + d t) {w a : Nat} (ha : a < w)
    (hd : ∀ r m, m < w → d (w * r + m) ≤ if m = a then 1 else 0) (r m : Nat) (hm : m ≤ w) :
    g (w * r + m) ≤ r + if a < m then 1 else 0 := by
  have inner : ∀ r, g (w * r) ≤ r → ∀ m, m ≤ w → g (w * r + m) ≤ r + if a < m then 1 else 0 := by
    intro r h0 m
    induction m with
    | zero => intro _; simpa using h0
    | succ m ih =>
      intro hm
      have h1 := ih (by omega)
      have h2 := hd r m (by omega)
      rw [← Nat.add_assoc, gs]
      split at h1 <;> split at h2 <;> split <;> omega
  have outer : ∀ r, g (w * r) ≤ r := by
    intro r
    induction r with
    | zero => simp [g0]
    | succ r ih =>
      have := inner r ih w (Nat.le_refl _)
      rw [if_pos ha] at this
      rw [Nat.mul_add, Nat.mul_one]; exact this
  exact inner r (outer r) m hm

theorem cnt_ge {g d : Nat → Nat} (gs : ∀ t, g (t + 1) = g t + d t) {w a L : Nat} (ha : a < w)
    (hd : ∀ r, w * r + a < L → 1 ≤ d (w * r + a)) (r m : Nat) (hm : w * r + m ≤ L) :
    (r + if a < m then 1 else 0) ≤ g (w * r + m) := by
  have mono : ∀ t k, g t ≤ g (t + k) := by
    intro t k
    induction k with
    | zero => exact Nat.le_refl _
    | succ k ih => rw [← Nat.add_assoc, gs]; omega
  have one : ∀ r, r ≤ g (w * r) → ∀ m, a < m → w * r + m ≤ L → r + 1 ≤ g (w * r + m) := by
    intro r h0 m ham hL
    have h1 := hd r (by omega)
    have h2 := gs (w * r + a)
    have h3 := mono (w * r) a
    have h4 := mono (w * r + a + 1) (m - (a + 1))
    have e : w * r + a + 1 + (m - (a + 1)) = w * r + m := by omega
    rw [e] at h4
    omega
  have outer : ∀ r, w * r ≤ L → r ≤ g (w * r) := by
    intro r
    induction r with
    | zero => intro _; omega
    | succ r ih =>
      intro hL
      rw [Nat.mul_add, Nat.mul_one] at hL ⊢
      exact one r (ih (by omega)) w ha hL
  split
  · rename_i h; exact one r (outer r (by omega)) m h hm
  · exact Nat.le_trans (outer r (by omega)) (mono _ _)

/-- The first `t` of these. -/
def firsts (A : Nat → Act) (t : Nat) : List Act := (List.range t).map A

theorem firsts_succ (A : Nat → Act) (t : Nat) : firsts A (t + 1) = firsts A t ++ [A t] := by
  unfold firsts; rw [List.range_succ, List.map_append]; rfl

theorem done_firsts {f : List Res → Act} {A : Nat → Act} (h : ∀ l, f l = A l.length) (l : List Res) :
    done f l = firsts A l.length := by
  induction l using snoc_ind with
  | h0 => rfl
  | h1 l x ih => rw [done_snoc, ih, List.length_append, List.length_singleton, firsts_succ, h]

theorem begun_firsts {N : Prog} {s : St} {p : Nat} {A : Nat → Act} (h : ∀ l, N.act p l = A l.length) :
    started N s p = firsts A (s.begun p) := by
  unfold started Net.begun St.begun
  split
  · rw [done_firsts h]; simp
  · rw [done_firsts h, firsts_succ, h]

theorem nreads_firsts (c : Nat) (A : Nat → Act) (t : Nat) :
    nreads c (firsts A (t + 1)) = nreads c (firsts A t) + if A t = .read c then 1 else 0 := by
  rw [firsts_succ, nreads_snoc]

theorem wrote_firsts (c : Nat) (A : Nat → Act) (t : Nat) :
    (wrote c (firsts A (t + 1))).length = (wrote c (firsts A t)).length + isW c (A t) := by
  rw [firsts_succ, wrote_snoc, List.length_append]
  cases A t with
  | write c' v => by_cases h : c' = c <;> simp [isW, h]
  | _ => rfl

/-- What has been read from an open channel has been written to it. -/
theorem NI.reads_le {N : Prog} {s : St} (i : NI N s) (c : Nat) (ho : Act.close c ∉ started N s (N.wr c)) :
    nreads c (done (N.act (N.rd c)) (s.hist (N.rd c))) ≤ (wrote c (started N s (N.wr c))).length := by
  have li := i.link c
  unfold LiAt at li
  obtain ⟨e, he, hel⟩ := li.got
  rw [li.no_newly, List.append_nil] at he
  have hd := li.delivered
  have e0 : e = 0 := by
    apply Classical.byContradiction
    intro h
    exact ho ((i.shut c).1 (hel h).1)
  rw [← received_length, he, e0]
  have h2 := (sent_wrote c (started N s (N.wr c))).length_le
  simp only [vmap, List.replicate_zero, List.append_nil, List.length_map]
  omega

theorem hist_guest {n R i : Nat} (hi : i < n) (cap : Nat → Nat) (es : List Ev) :
    ((run (barrier n R) cap es).hist i).length ≤ 2 * R := by
  have hf := C110_results (barrier n R) (barrier_proper n R) cap es i
  generalize (run (barrier n R) cap es).hist i = h at *
  apply Classical.byContradiction
  intro hn
  have h1 := hf (h.take (2 * R)) (h[2 * R]'(by omega)) (by rw [← List.take_succ_eq_append_getElem (by omega)]; exact List.take_prefix _ _)
  unfold fit at h1
  rw [act_guest hi, List.length_take, guest, if_neg (by omega)] at h1
  exact h1

theorem hist_host {n R : Nat} (cap : Nat → Nat) (es : List Ev) :
    ((run (barrier n R) cap es).hist n).length ≤ 2 * n * R := by
  have hf := C110_results (barrier n R) (barrier_proper n R) cap es n
  generalize (run (barrier n R) cap es).hist n = h at *
  apply Classical.byContradiction
  intro hn
  have h1 := hf (h.take (2 * n * R)) (h[2 * n * R]'(by omega)) (by rw [← List.take_succ_eq_append_getElem (by omega)]; exact List.take_prefix _ _)
  unfold fit at h1
  rw [act_host, List.length_take, host, if_neg (by omega)] at h1
  exact h1

theorem open_started (n R p : Nat) (s : St) (c : Nat) : Act.close c ∉ started (barrier n R) s p := by
  intro h
  have h1 := (started_offered _ _ _).subset h
  unfold offered at h1
  rcases List.mem_append.1 h1 with h2 | h2
  · exact open_done _ _ _ _ _ h2
  · exact barrier_open _ _ _ _ _ (List.mem_singleton.1 h2).symm

/-- Who has been let go for the `r`-th time was so by the host, after it had waited for everybody for the `r`-th time. -/
theorem let_go {n R i r : Nat} (hi : i < n) (cap : Nat → Nat) (es : List Ev)
    (h : 2 * r + 2 ≤ ((run (barrier n R) cap es).hist i).length) :
    2 * n * r + n ≤ ((run (barrier n R) cap es).hist n).length := by
  have hL := hist_guest hi cap es (R := R)
  have ni := NI.run (barrier_proper n R) cap es
  have h1 := ni.reads_le (2 * i + 1) (open_started _ _ _ _ _)
  generalize run (barrier n R) cap es = s at *
  have erd : (barrier n R).rd (2 * i + 1) = i := by
    simp only [barrier]; rw [if_neg (by omega)]; omega
  have ewr : (barrier n R).wr (2 * i + 1) = n := by
    simp only [barrier]; rw [if_neg (by omega)]
  rw [erd, ewr, done_firsts (fun l => act_guest hi l), begun_firsts (fun l => act_host n R l)] at h1
  have h2 := cnt_ge (g := fun t => nreads (2 * i + 1) (firsts (guest R i) t)) (nreads_firsts _ _) (w := 2) (a := 1)
    (L := 2 * R) (by omega) (fun r hr => by
      have e : guest R i (2 * r + 1) = .read (2 * i + 1) := by rw [guest, if_pos hr, if_neg (by omega)]
      rw [e, if_pos rfl]; exact Nat.le_refl _) r ((s.hist i).length - 2 * r) (by omega)
  have e1 : 2 * r + ((s.hist i).length - 2 * r) = (s.hist i).length := by omega
  rw [e1, if_pos (by omega)] at h2
  apply Classical.byContradiction
  intro hn
  have hb : s.begun n ≤ 2 * n * r + n := by
    unfold St.begun; split <;> omega
  have h3 := cnt_le (g := fun t => (wrote (2 * i + 1) (firsts (host n R) t)).length) rfl (wrote_firsts _ _) (w := 2 * n)
    (a := n + i) (by omega) (fun r m hm => by
      rw [host]
      have e : (2 * n * r + m) % (2 * n) = m := by rw [Nat.mul_add_mod]; exact Nat.mod_eq_of_lt hm
      rw [e]
      split
      · split
        · exact Nat.zero_le _
        · show (if 2 * (m - n) + 1 = 2 * i + 1 then 1 else 0) ≤ _
          repeat' split
          all_goals omega
      · exact Nat.zero_le _) r n (by omega)
  rw [if_neg (by omega)] at h3
  have mono : ∀ k, (wrote (2 * i + 1) (firsts (host n R) (s.begun n))).length ≤
      (wrote (2 * i + 1) (firsts (host n R) (s.begun n + k))).length := by
    intro k
    induction k with
    | zero => exact Nat.le_refl _
    | succ k ih => rw [← Nat.add_assoc, wrote_firsts]; omega
  have h4 := mono (2 * n * r + n - s.begun n)
  have e2 : s.begun n + (2 * n * r + n - s.begun n) = 2 * n * r + n := by omega
  rw [e2] at h4
  omega

/-- When the host has waited for everybody for the `r`-th time, everybody has come for the `r`-th time. -/
theorem arrived {n R j r : Nat} (hj : j < n) (cap : Nat → Nat) (es : List Ev)
    (h : 2 * n * r + n ≤ ((run (barrier n R) cap es).hist n).length) :
    2 * r + 1 ≤ (run (barrier n R) cap es).begun j := by
  have hL := hist_host (n := n) (R := R) cap es
  have ni := NI.run (barrier_proper n R) cap es
  have h1 := ni.reads_le (2 * j) (open_started _ _ _ _ _)
  generalize run (barrier n R) cap es = s at *
  have erd : (barrier n R).rd (2 * j) = n := by
    simp only [barrier]; rw [if_pos (by omega)]
  have ewr : (barrier n R).wr (2 * j) = j := by
    simp only [barrier]; rw [if_pos (by omega)]; omega
  rw [erd, ewr, done_firsts (fun l => act_host n R l), begun_firsts (fun l => act_guest hj l)] at h1
  have h2 := cnt_ge (g := fun t => nreads (2 * j) (firsts (host n R) t)) (nreads_firsts _ _) (w := 2 * n) (a := j)
    (L := 2 * n * R) (by omega) (fun r hr => by
      have e : (2 * n * r + j) % (2 * n) = j := by rw [Nat.mul_add_mod]; exact Nat.mod_eq_of_lt (by omega)
      rw [host, if_pos hr, e, if_pos hj, if_pos rfl]; exact Nat.le_refl _) r ((s.hist n).length - 2 * n * r) (by omega)
  have e1 : 2 * n * r + ((s.hist n).length - 2 * n * r) = (s.hist n).length := by omega
  rw [e1, if_pos (by omega)] at h2
  apply Classical.byContradiction
  intro hn
  have h3 := cnt_le (g := fun t => (wrote (2 * j) (firsts (guest R j) t)).length) rfl (wrote_firsts _ _) (w := 2)
    (a := 0) (by omega) (fun r m hm => by
      rw [guest]
      split
      · split
        · rw [if_pos (by omega)]; simp [isW]
        · exact Nat.zero_le _
      · exact Nat.zero_le _) r 0 (by omega)
  rw [if_neg (by omega)] at h3
  have mono : ∀ k, (wrote (2 * j) (firsts (guest R j) (s.begun j))).length ≤
      (wrote (2 * j) (firsts (guest R j) (s.begun j + k))).length := by
    intro k
    induction k with
    | zero => exact Nat.le_refl _
    | succ k ih => rw [← Nat.add_assoc, wrote_firsts]; omega
  have h4 := mono (2 * r - s.begun j)
  have e2 : s.begun j + (2 * r - s.begun j) = 2 * r + 0 := by omega
  rw [e2] at h4
  omega

end Cobalt.Net
