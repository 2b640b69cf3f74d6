import Verif.Fork.Eval
/-! Helper: every event that does something leaves less to do. -/
namespace Cobalt.Fork
open Prom (Out upd)

def one : Pos → Nat
  | .idle => 1
  | _ => 0

/-- What coroutine `c` has left to do, with all it has yet to start. -/
noncomputable def left (N : Prog) (κ : Nat → Nat) (s : St) (c : Nat) : Nat :=
  2 * ((whole N (s.arg c)).length - (s.hist c).length) + one (s.pos c) +
    (((starts (done (N.act (s.arg c)) (whole N (s.arg c)))).drop
      (starts (done (N.act (s.arg c)) (s.hist c))).length).map κ).sum

noncomputable def total (N : Prog) (κ : Nat → Nat) (s : St) : Nat := ((List.range s.next).map (left N κ s)).sum

theorem sum_le (f g : Nat → Nat) (b : Nat) (hle : ∀ q, q < b → g q ≤ f q) :
    ((List.range b).map g).sum ≤ ((List.range b).map f).sum := by
  induction b with
  | zero => simp
  | succ b ih =>
    have h1 := ih (fun q hq => hle q (by omega))
    have h2 := hle b (by omega)
    simp only [List.range_succ, List.map_append, List.sum_append, List.map_cons, List.map_nil, List.sum_cons, List.sum_nil]
    omega

theorem sum_lt (f g : Nat → Nat) (b d : Nat) (hle : ∀ q, q < b → g q ≤ f q) (hlt : ∃ p, p < b ∧ g p + d ≤ f p) :
    ((List.range b).map g).sum + d ≤ ((List.range b).map f).sum := by
  induction b with
  | zero => obtain ⟨p, hp, -⟩ := hlt; omega
  | succ b ih =>
    obtain ⟨p, hp, hp'⟩ := hlt
    have h1 := sum_le f g b (fun q hq => hle q (by omega))
    have h2 := hle b (by omega)
    simp only [List.range_succ, List.map_append, List.sum_append, List.map_cons, List.map_nil, List.sum_cons, List.sum_nil]
    by_cases hb : p = b
    · subst hb; omega
    · have := ih (fun q hq => hle q (by omega)) ⟨p, by omega, hp'⟩
      omega

/-- Everybody that was started will end. -/
theorem term_all {N : Prog} (hN : N.proper) {a : Nat} {s : St} (i : FI N a s) (ht : Term N a) :
    ∀ c, c < s.next → Term N (s.arg c) := by
  obtain ⟨ph, i, -⟩ := i
  intro c
  induction c using Nat.strongRecOn with
  | _ c ih =>
    intro hc
    rcases Nat.eq_zero_or_pos c with h | h
    · subst h; have := i.arg0; dsimp only [St.g] at this; rw [this]; exact ht
    · have h1 : c ∈ s.kids (s.par c) := i.own c h hc
      have h2 := (i.par _ _ h1).2.1
      have h3 := ih (s.par c) h2 (by omega)
      apply kids_term hN h3
      have h4 : s.arg c ∈ (s.kids (s.par c)).map s.arg := List.mem_map.2 ⟨c, h1, rfl⟩
      have h5 := i.args (s.par c)
      dsimp only [St.g] at h5
      rw [h5] at h4
      exact (starts_prefix (done_prefix _ (whole_max h3 (i.hist (s.par c))))).subset h4

/-- A coroutine gets one thing further. -/
theorem left_snoc {N : Prog} {κ : Nat → Nat} {s s' : St} {c : Nat} {x : Res} (ha : s'.arg c = s.arg c)
    (hh : s'.hist c = s.hist c ++ [x]) (hm : s.hist c ++ [x] <+: whole N (s.arg c)) (hp' : s'.pos c = .idle) :
    left N κ s' c + 1 + one (s.pos c) +
      (if let .start b := N.act (s.arg c) (s.hist c) then κ b else 0) ≤ left N κ s c := by
  unfold left
  rw [ha, hh, hp']
  have hl := hm.length_le
  simp only [List.length_append, List.length_singleton] at hl ⊢
  have hd := starts_prefix (done_prefix (N.act (s.arg c)) hm)
  rw [done_snoc] at hd ⊢
  obtain ⟨u, hu⟩ := hd
  rw [starts_append] at hu ⊢
  rw [← hu]
  have e1 : (starts (done (N.act (s.arg c)) (s.hist c)) ++ starts [N.act (s.arg c) (s.hist c)] ++ u).drop
      (starts (done (N.act (s.arg c)) (s.hist c))).length = starts [N.act (s.arg c) (s.hist c)] ++ u := by
    rw [List.append_assoc, List.drop_left]
  have e2 : (starts (done (N.act (s.arg c)) (s.hist c)) ++ starts [N.act (s.arg c) (s.hist c)] ++ u).drop
      (starts (done (N.act (s.arg c)) (s.hist c)) ++ starts [N.act (s.arg c) (s.hist c)]).length = u := by
    rw [List.drop_left]
  rw [e1, e2, List.map_append, List.sum_append]
  cases hact : N.act (s.arg c) (s.hist c) with
  | start b => simp [starts, one]; omega
  | op y => simp [starts, one]; cases s.pos c <;> simp <;> omega
  | await k => simp [starts, one]; cases s.pos c <;> simp <;> omega
  | fin o => simp [starts, one]; cases s.pos c <;> simp <;> omega

theorem left_same {N : Prog} {κ : Nat → Nat} {s s' : St} {c : Nat} (ha : s'.arg c = s.arg c) (hh : s'.hist c = s.hist c)
    (hp : s'.pos c = s.pos c) : left N κ s' c = left N κ s c := by
  unfold left; rw [ha, hh, hp]

theorem settle_left {N : Prog} {κ : Nat → Nat} {s : St} {p r : Nat}
    (hm : ∀ q, q < s.next → (s.settle p r).hist q <+: whole N (s.arg q)) (q : Nat) (hq : q < s.next) :
    left N κ (s.settle p r) q ≤ left N κ s q := by
  have hm := hm q hq
  unfold St.settle at *
  split
  · rename_i hp
    split
    · rename_i g hg
      by_cases hqp : q = p
      · subst hqp
        rw [if_pos hp] at hm
        split at hm
        · rename_i g' hg'
          have : g' = g := by rw [hg] at hg'; cases hg'; rfl
          subst this
          dsimp only at hm
          rw [upd_same] at hm
          have := left_snoc (N := N) (κ := κ) (s := s)
            (s' := { s with hist := upd s.hist q (s.hist q ++ [ofGot g']), pos := upd s.pos q .idle }) (c := q) rfl
            (upd_same _ _ _) hm (upd_same _ _ _)
          omega
        · rename_i h1
          exact absurd hg (h1 _ _ _)
      · exact Nat.le_of_eq (left_same rfl (upd_diff _ _ hqp) (upd_diff _ _ hqp))
    · exact Nat.le_refl _
  · exact Nat.le_refl _

theorem settle_next (s : St) (p r : Nat) : (s.settle p r).next = s.next ∧ (s.settle p r).arg = s.arg := by
  unfold St.settle
  split
  · split <;> exact ⟨rfl, rfl⟩
  · exact ⟨rfl, rfl⟩

/-- Only the position of `c` changed, and it no longer is about to go on. -/
theorem left_pos {N : Prog} {κ : Nat → Nat} {s s' : St} {c : Nat} (ha : s'.arg = s.arg) (hh : s'.hist = s.hist)
    (hp : s.pos c = .idle) {q : Pos} (hq : q ≠ .idle) (hp' : s'.pos = upd s.pos c q) :
    (∀ d, left N κ s' d ≤ left N κ s d) ∧ left N κ s' c + 1 ≤ left N κ s c := by
  have h1 : one q = 0 := by cases q <;> first | rfl | exact absurd rfl hq
  have h2 : left N κ s' c + 1 ≤ left N κ s c := by
    unfold left
    rw [ha, hh, hp', upd_same, hp, h1]
    simp only [one]; omega
  refine ⟨fun d => ?_, h2⟩
  by_cases hd : d = c
  · subst hd; omega
  · exact Nat.le_of_eq (left_same (by rw [ha]) (by rw [hh]) (by rw [hp', upd_diff _ _ hd]))

theorem total_step {N : Prog} (hN : N.proper) {κ : Nat → Nat}
    (hκ : ∀ a, Term N a → κ a = 2 * (whole N a).length + 2 + ((starts (done (N.act a) (whole N a))).map κ).sum)
    {a : Nat} (ht : Term N a) {s : St} (i : FI N a s) {e : Ev} (hu : s.useful e) :
    total N κ (s.step N e) < total N κ s := by
  have i' := i.step hN e
  have hterm := term_all hN i' ht
  have hmax : ∀ q, q < (s.step N e).next → (s.step N e).hist q <+: whole N ((s.step N e).arg q) := by
    intro q hq
    obtain ⟨ph, g, -⟩ := i'
    exact whole_max (hterm q hq) (g.hist q)
  unfold total
  cases e with
  | complete c =>
    obtain ⟨x, hx⟩ := hu
    have hl : c < s.next := by
      obtain ⟨ph, g, -⟩ := i
      apply Classical.byContradiction
      intro h
      have h1 := (g.new c (Nat.le_of_not_lt h)).2.1
      have h2 : (s.g ph).pos c = .onOp x := hx
      rw [h1] at h2; cases h2
    have e1 : s.step N (.complete c) =
        { s with hist := upd s.hist c (s.hist c ++ [.val (N.op x)]), pos := upd s.pos c .idle } := by
      simp only [St.step, hx]
    rw [e1] at hmax ⊢
    have hm := hmax c hl
    dsimp only at hm
    rw [upd_same] at hm
    have h1 := left_snoc (N := N) (κ := κ) (s := s)
      (s' := { s with hist := upd s.hist c (s.hist c ++ [.val (N.op x)]), pos := upd s.pos c .idle }) (c := c) rfl
      (upd_same _ _ _) hm (upd_same _ _ _)
    apply sum_lt (d := 1)
    · intro q _
      by_cases hq : q = c
      · subst hq; omega
      · exact Nat.le_of_eq (left_same rfl (upd_diff _ _ hq) (upd_diff _ _ hq))
    · exact ⟨c, hl, by omega⟩
  | go c =>
    obtain ⟨hl, hc⟩ := hu
    have e0 : s.step N (.go c) = s.act c (N.act (s.arg c) (s.hist c)) := by
      simp only [St.step, hl, hc, and_self, if_true]
    rw [e0] at hmax hterm ⊢
    cases ha : N.act (s.arg c) (s.hist c) with
    | start b =>
      rw [ha] at hmax hterm
      simp only [St.act] at hmax hterm ⊢
      generalize hs' : ({ s with
        prom := s.prom.step (.create s.next s.next), arg := upd s.arg s.next b, par := upd s.par s.next c
        kids := upd s.kids c (s.kids c ++ [s.next]), hist := upd s.hist c (s.hist c ++ [.started])
        next := s.next + 1 } : St) = s' at *
      have hcn : c ≠ s.next := by omega
      have a1 : s'.arg c = s.arg c := by rw [← hs']; exact upd_diff _ _ hcn
      have h1 : s'.hist c = s.hist c ++ [.started] := by rw [← hs']; exact upd_same _ _ _
      have p1 : s'.pos = s.pos := by rw [← hs']
      have hm := hmax c (by omega)
      rw [upd_same, upd_diff _ _ hcn] at hm
      have k1 := left_snoc (N := N) (κ := κ) a1 h1 hm (by rw [p1]; exact hc)
      rw [ha, hc] at k1
      simp only [one] at k1
      rw [List.range_succ, List.map_append, List.sum_append]
      have k2 : left N κ s' s.next + 1 = κ b := by
        have a2 : s'.arg s.next = b := by rw [← hs']; exact upd_same _ _ _
        have ht2 := hterm s.next (by omega)
        rw [upd_same] at ht2
        obtain ⟨ph, g, -⟩ := i
        have hn := g.new s.next (Nat.le_refl _)
        have h2 : s'.hist s.next = [] := by
          rw [← hs']
          dsimp only
          rw [upd_diff _ _ (Ne.symm hcn)]; exact hn.1
        have p2 : s'.pos s.next = .idle := by rw [p1]; exact hn.2.1
        unfold left
        rw [a2, h2, p2, hκ b ht2]
        simp [one, done, starts]; omega
      have k3 := sum_lt (left N κ s) (left N κ s') s.next (κ b + 2) (fun q hq => by
        by_cases hqc : q = c
        · subst hqc; omega
        · refine Nat.le_of_eq (left_same ?_ ?_ (by rw [p1]))
          · rw [← hs']; exact upd_diff _ _ (by omega)
          · rw [← hs']; exact upd_diff _ _ hqc) ⟨c, hl, by omega⟩
      simp only [List.map_cons, List.map_nil, List.sum_cons, List.sum_nil]
      omega
    | op x =>
      simp only [St.act]
      have k := left_pos (N := N) (κ := κ) (s := s) (s' := { s with pos := upd s.pos c (.onOp x) }) (c := c) rfl rfl hc
        (q := .onOp x) (by simp) rfl
      exact sum_lt _ _ _ 1 (fun q _ => k.1 q) ⟨c, hl, k.2⟩
    | await k =>
      rw [ha] at hmax
      simp only [St.act] at hmax ⊢
      split
      · rename_i r hr
        rw [hr] at hmax
        dsimp only at hmax
        have k1 := left_pos (N := N) (κ := κ) (s := s)
          (s' := { s with prom := s.prom.step (.await r r), pos := upd s.pos c (.on r) }) (c := c) rfl rfl hc
          (q := .on r) (by simp) rfl
        have k2 := settle_left (N := N) (κ := κ) (p := c) (r := r)
          (s := { s with prom := s.prom.step (.await r r), pos := upd s.pos c (.on r) }) (fun q hq => by
            have := hmax q (by rw [(settle_next _ _ _).1]; exact hq)
            rw [(settle_next _ _ _).2] at this
            exact this)
        rw [(settle_next _ _ _).1]
        exact sum_lt _ _ _ 1 (fun q hq => Nat.le_trans (k2 q hq) (k1.1 q))
          ⟨c, hl, Nat.le_trans (Nat.add_le_add_right (k2 c hl) 1) k1.2⟩
      · have k := left_pos (N := N) (κ := κ) (s := s) (s' := { s with pos := upd s.pos c .lost }) (c := c) rfl rfl hc
          (q := .lost) (by simp) rfl
        exact sum_lt _ _ _ 1 (fun q _ => k.1 q) ⟨c, hl, k.2⟩
    | fin o =>
      rw [ha] at hmax
      simp only [St.act] at hmax ⊢
      have k1 := left_pos (N := N) (κ := κ) (s := s)
        (s' := { s with prom := (drops s.prom (s.kids c)).step (.finish c o), pos := upd s.pos c (.ended o) }) (c := c)
        rfl rfl hc (q := .ended o) (by simp) rfl
      have k2 := settle_left (N := N) (κ := κ) (p := s.par c) (r := c)
        (s := { s with prom := (drops s.prom (s.kids c)).step (.finish c o), pos := upd s.pos c (.ended o) })
        (fun q hq => by
          have := hmax q (by rw [(settle_next _ _ _).1]; exact hq)
          rw [(settle_next _ _ _).2] at this
          exact this)
      rw [(settle_next _ _ _).1]
      exact sum_lt _ _ _ 1 (fun q hq => Nat.le_trans (k2 q hq) (k1.1 q))
        ⟨c, hl, Nat.le_trans (Nat.add_le_add_right (k2 c hl) 1) k1.2⟩

theorem usefuls_bound {N : Prog} (hN : N.proper) {κ : Nat → Nat}
    (hκ : ∀ a, Term N a → κ a = 2 * (whole N a).length + 2 + ((starts (done (N.act a) (whole N a))).map κ).sum)
    {a : Nat} (ht : Term N a) {s : St} (i : FI N a s) (es : List Ev) (hu : s.usefuls N es) :
    es.length ≤ total N κ s := by
  induction es generalizing s with
  | nil => exact Nat.zero_le _
  | cons e es ih =>
    obtain ⟨h1, h2⟩ := hu
    have h3 := ih (i.step hN e) h2
    have h4 := total_step hN hκ ht i h1
    simp only [List.length_cons]; omega

theorem not_rest {s : St} (h : ¬ s.rest) : ∃ e, s.useful e := by
  apply Classical.byContradiction
  intro hn
  refine h fun c hc => ⟨fun hp => hn ⟨.go c, hc, hp⟩, fun x hx => hn ⟨.complete c, x, hx⟩⟩

theorem reaches {N : Prog} (hN : N.proper) {κ : Nat → Nat}
    (hκ : ∀ a, Term N a → κ a = 2 * (whole N a).length + 2 + ((starts (done (N.act a) (whole N a))).map κ).sum)
    {a : Nat} (ht : Term N a) (es : List Ev) : ∃ more, (run N a (es ++ more)).rest := by
  generalize hn : total N κ (run N a es) = n
  induction n using Nat.strongRecOn generalizing es with
  | _ n ih =>
    by_cases h : (run N a es).rest
    · exact ⟨[], by rw [List.append_nil]; exact h⟩
    · obtain ⟨e, he⟩ := not_rest h
      have h1 := total_step hN hκ ht (FI.run hN a es) he
      rw [hn, ← run_snoc] at h1
      obtain ⟨more, hm⟩ := ih _ h1 (es ++ [e]) rfl
      exact ⟨e :: more, by rw [List.append_assoc, List.singleton_append] at hm; exact hm⟩

/-- At rest everybody has ended. -/
theorem rest_ended {N : Prog} (hN : N.proper) {a : Nat} {s : St} (i : FI N a s) (hr : s.rest) (c : Nat) (hc : c < s.next) :
    ∃ o, s.pos c = .ended o := by
  obtain ⟨ph, i, -⟩ := i
  -- who awaits, awaits somebody with a greater number
  have : ∀ n c, c < s.next → s.next - c ≤ n → ∃ o, s.pos c = .ended o := by
    intro n
    induction n with
    | zero => intro c hc hn; omega
    | succ n ih =>
      intro c hc hn
      cases hp : s.pos c with
      | idle => exact absurd hp (hr c hc).1
      | onOp x => exact absurd hp ((hr c hc).2 x)
      | lost => exact absurd hp (i.lost c)
      | ended o => exact ⟨o, rfl⟩
      | on r =>
        exfalso
        obtain ⟨k, -, hk⟩ := i.on c r hp
        have hkp := i.kid_par hk
        have h1 : r < s.next := hkp.2.2
        obtain ⟨o, ho⟩ := ih r h1 (by omega)
        have h2 := (i.fin r o).2 ho
        have h3 := (i.waited hN (p := c) (r := r) hp).1
        have h4 : (ph r).out = some o := h2
        have h5 : ph r = .awaited := h3
        rw [h5] at h4; cases h4
  exact this _ c hc (Nat.le_refl _)

end Cobalt.Fork
