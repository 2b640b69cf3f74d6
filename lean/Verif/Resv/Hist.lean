import Verif.Resv.Lemmas
/-! # The operations and what happened -/
namespace Cobalt.Resv

theorem split_unique {α : Type} {x : α} : ∀ {a a' b b' : List α}, a ++ x :: b = a' ++ x :: b' →
    x ∉ a → x ∉ a' → a = a' ∧ b = b'
  | [], [], _, _, h, _, _ => ⟨rfl, by simpa using h⟩
  | [], y :: _, _, _, h, _, h2 => by
    simp at h; exact absurd (by simp [h.1]) h2
  | y :: _, [], _, _, h, h1, _ => by
    simp at h; exact absurd (by simp [h.1]) h1
  | y :: a, z :: a', b, b', h, h1, h2 => by
    simp at h
    obtain ⟨rfl, h⟩ := h
    obtain ⟨h3, h4⟩ := split_unique h (fun k => h1 (by simp [k])) (fun k => h2 (by simp [k]))
    exact ⟨by rw [h3], h4⟩

def Ph.waits : Ph → Prop
  | .asked _ _ _ _ => True
  | .out _ => True
  | _ => False

structure Inv2 (v : Nat → Nat) (es : List Ev) (s : St) : Prop where
  none : ∀ i, s.ph i = .none → ∀ r h w, .make i r h w ∉ es
  uniq : ∀ i r h w r' h' w', .make i r h w ∈ es → .make i r' h' w' ∈ es → r = r' ∧ h = h' ∧ w = w'
  aw : ∀ i, .await i ∈ es → (s.ph i).waits
  nd : (awaits es).Nodup
  made : ∀ i r h w, s.ph i = .made r h w → ∃ p m, es = p ++ .make i r h w :: m
  asked : ∀ i r t x y, s.ph i = .asked r t x y → ∃ a b h w, es = a ++ .await i :: b ∧
    .make i r h w ∈ a ∧ x = text v h a ∧ y = text v w a ∧ t = a.countP (Ev.cuts r)
  out : ∀ i o, s.ph i = .out o → Answer v es i o
  tld : ∀ i o, (i, o) ∈ s.told → s.ph i = .out o
  inq : ∀ i, i ∈ s.queue → ∃ r t x y, s.ph i = .asked r t x y
  inb : ∀ i, s.busy = some i → ∃ o, s.ph i = .out o
  inp : ∀ i, i ∈ s.posted → ∃ o, s.ph i = .out o

theorem Inv2.ini (v : Nat → Nat) : Inv2 v [] (init v) := by
  constructor <;> simp [init, awaits]

theorem Answer.snoc {v : Nat → Nat} {es : List Ev} {i : Nat} {o : Out} (e : Ev)
    (h : Answer v es i o) : Answer v (es ++ [e]) i o := by
  obtain ⟨a, r, hh, w, b, c, rfl, h⟩ := h
  exact ⟨a, r, hh, w, b, c ++ [e], by simp, h⟩

/-- Events that do not touch the operations. -/
theorem Inv2.frame {v : Nat → Nat} {es : List Ev} {s s' : St} {e : Ev} (h : Inv2 v es s)
    (h1 : s'.ph = s.ph) (h2 : s'.told = s.told) (h3 : s'.queue = s.queue) (h4 : s'.busy = s.busy)
    (h5 : s'.posted = s.posted) (hm : ∀ i r hh w, e ≠ .make i r hh w) (ha : ∀ i, e ≠ .await i) :
    Inv2 v (es ++ [e]) s' := by
  obtain ⟨a1, a2, a3, a4, a5, a6, a7, a8, a9, a10, a11⟩ := h
  have hn : e.awaited = Option.none := by
    cases e <;> simp [Ev.awaited]
    exact absurd rfl (ha _)
  constructor
  · intro i hi r hh w hc
    rw [h1] at hi
    rcases List.mem_append.1 hc with hc | hc
    · exact a1 i hi r hh w hc
    · exact hm _ _ _ _ (List.mem_singleton.1 hc).symm
  · intro i r hh w r' h' w' m1 m2
    rcases List.mem_append.1 m1 with m1 | m1
    · rcases List.mem_append.1 m2 with m2 | m2
      · exact a2 _ _ _ _ _ _ _ m1 m2
      · exact absurd (List.mem_singleton.1 m2).symm (hm _ _ _ _)
    · exact absurd (List.mem_singleton.1 m1).symm (hm _ _ _ _)
  · intro i hi
    rw [h1]
    rcases List.mem_append.1 hi with hi | hi
    · exact a3 i hi
    · exact absurd (List.mem_singleton.1 hi).symm (ha _)
  · rw [awaits_snoc, hn]; simpa using a4
  · intro i r hh w hp
    rw [h1] at hp
    obtain ⟨p, m, rfl⟩ := a5 _ _ _ _ hp
    exact ⟨p, m ++ [e], by simp⟩
  · intro i r t x y hp
    rw [h1] at hp
    obtain ⟨a, b, hh, w, rfl, h⟩ := a6 _ _ _ _ _ hp
    exact ⟨a, b ++ [e], hh, w, by simp, h⟩
  · intro i o hp
    rw [h1] at hp
    exact (a7 _ _ hp).snoc e
  · rw [h1, h2]; exact a8
  · rw [h1, h3]; exact a9
  · rw [h1, h4]; exact a10
  · rw [h1, h5]; exact a11

theorem Inv2.step {v : Nat → Nat} {es : List Ev} {s s' : St} {e : Ev} (g : Inv1 v es s)
    (h : Inv2 v es s) (he : s.step e = .ok s') : Inv2 v (es ++ [e]) s' := by
  cases e with
  | set c x =>
    obtain ⟨h1, rfl⟩ := set_ok he
    exact h.frame rfl rfl rfl rfl rfl (by simp) (by simp)
  | free c =>
    obtain ⟨h1, rfl⟩ := free_ok he
    exact h.frame rfl rfl rfl rfl rfl (by simp) (by simp)
  | cancel k =>
    have h1 := cancel_ok he
    subst h1
    exact h.frame rfl rfl rfl rfl rfl (by simp) (by simp)
  | drop k =>
    have h1 := drop_ok he
    subst h1
    exact h.frame rfl rfl rfl rfl rfl (by simp) (by simp)
  | signal i =>
    cases he
    exact h.frame rfl rfl rfl rfl rfl (by simp) (by simp)
  | make i r hh w =>
    obtain ⟨⟨h1, -⟩, rfl⟩ := make_ok he
    obtain ⟨a1, a2, a3, a4, a5, a6, a7, a8, a9, a10, a11⟩ := h
    have hno := a1 i h1
    constructor
    · intro j hj r' h' w' hc
      simp only [upd_app] at hj
      split at hj
      · cases hj
      · rename_i hne
        rcases List.mem_append.1 hc with hc | hc
        · exact a1 j hj _ _ _ hc
        · cases List.mem_singleton.1 hc; exact hne rfl
    · intro j r1 h1 w1 r2 h2 w2 m1 m2
      rcases List.mem_append.1 m1 with m1 | m1 <;> rcases List.mem_append.1 m2 with m2 | m2
      · exact a2 _ _ _ _ _ _ _ m1 m2
      · cases List.mem_singleton.1 m2; exact absurd m1 (hno _ _ _)
      · cases List.mem_singleton.1 m1; exact absurd m2 (hno _ _ _)
      · cases List.mem_singleton.1 m1; cases List.mem_singleton.1 m2; exact ⟨rfl, rfl, rfl⟩
    · intro j hj
      have hj : .await j ∈ es := by simpa using hj
      have := a3 j hj
      simp only [upd_app]
      split
      · rename_i hji; subst hji; rw [h1] at this; exact this.elim
      · exact this
    · rw [awaits_snoc]; simpa [Ev.awaited] using a4
    · intro j r' h' w' hj
      simp only [upd_app] at hj
      split at hj
      · rename_i hji; subst hji; cases hj; exact ⟨es, [], rfl⟩
      · obtain ⟨p, m, rfl⟩ := a5 _ _ _ _ hj
        exact ⟨p, m ++ [.make i r hh w], by simp⟩
    · intro j r' t x y hj
      simp only [upd_app] at hj
      split at hj
      · cases hj
      · obtain ⟨a, b, hh', w', rfl, h⟩ := a6 _ _ _ _ _ hj
        exact ⟨a, b ++ [_], hh', w', by simp; rfl, h⟩
    · intro j o hj
      simp only [upd_app] at hj
      split at hj
      · cases hj
      · exact (a7 _ _ hj).snoc _
    · intro j o hj
      have := a8 j o hj
      simp only [upd_app]
      split
      · rename_i hji; subst hji; rw [h1] at this; cases this
      · exact this
    · intro j hj
      obtain ⟨r', t, x, y, hk⟩ := a9 j hj
      refine ⟨r', t, x, y, ?_⟩
      simp only [upd_app]
      split
      · rename_i hji; subst hji; rw [h1] at hk; cases hk
      · exact hk
    · intro j hj
      obtain ⟨o, hk⟩ := a10 j hj
      refine ⟨o, ?_⟩
      simp only [upd_app]
      split
      · rename_i hji; subst hji; rw [h1] at hk; cases hk
      · exact hk
    · intro j hj
      obtain ⟨o, hk⟩ := a11 j hj
      refine ⟨o, ?_⟩
      simp only [upd_app]
      split
      · rename_i hji; subst hji; rw [h1] at hk; cases hk
      · exact hk
  | await i =>
    obtain ⟨r, hh, w, x, y, h1, h2, h3, h4, rfl⟩ := await_ok he
    obtain ⟨a1, a2, a3, a4, a5, a6, a7, a8, a9, a10, a11⟩ := h
    have hno : .await i ∉ es := fun hc => by
      have := a3 i hc; rw [h1] at this; exact this
    constructor
    · intro j hj r' h' w' hc
      simp only [upd_app] at hj
      split at hj
      · cases hj
      · exact a1 j hj r' h' w' (by simpa using hc)
    · intro j r1 h1 w1 r2 h2 w2 m1 m2
      exact a2 j r1 h1 w1 r2 h2 w2 (by simpa using m1) (by simpa using m2)
    · intro j hj
      simp only [upd_app]
      split
      · exact trivial
      · rename_i hne
        rcases List.mem_append.1 hj with hj | hj
        · exact a3 j hj
        · cases List.mem_singleton.1 hj; exact absurd rfl hne
    · rw [awaits_snoc]
      simp only [Ev.awaited, Option.toList_some]
      rw [List.nodup_append]
      refine ⟨a4, by simp, ?_⟩
      intro a ha b hb hab
      cases List.mem_singleton.1 hb
      subst hab
      exact hno ((mem_awaits _ _).1 ha)
    · intro j r' h' w' hj
      simp only [upd_app] at hj
      split at hj
      · cases hj
      · obtain ⟨p, m, rfl⟩ := a5 _ _ _ _ hj
        exact ⟨p, m ++ [.await i], by simp⟩
    · intro j r' t x' y' hj
      simp only [upd_app] at hj
      split at hj
      · rename_i hji; subst hji; cases hj
        obtain ⟨p, m, hpm⟩ := a5 _ _ _ _ h1
        exact ⟨es, [], hh, w, rfl, by rw [hpm]; simp, g.txt _ _ h3, g.txt _ _ h4, g.htok _⟩
      · obtain ⟨a, b, hh', w', rfl, h⟩ := a6 _ _ _ _ _ hj
        exact ⟨a, b ++ [_], hh', w', by simp; rfl, h⟩
    · intro j o hj
      simp only [upd_app] at hj
      split at hj
      · cases hj
      · exact (a7 _ _ hj).snoc _
    · intro j o hj
      have := a8 j o hj
      simp only [upd_app]
      split
      · rename_i hji; subst hji; rw [h1] at this; cases this
      · exact this
    · intro j hj
      simp only [upd_app]
      split
      · exact ⟨_, _, _, _, rfl⟩
      · rename_i hne
        rcases List.mem_append.1 hj with hj | hj
        · exact a9 j hj
        · cases List.mem_singleton.1 hj; exact absurd rfl hne
    · intro j hj
      obtain ⟨o, hk⟩ := a10 j hj
      refine ⟨o, ?_⟩
      simp only [upd_app]
      split
      · rename_i hji; subst hji; rw [h1] at hk; cases hk
      · exact hk
    · intro j hj
      obtain ⟨o, hk⟩ := a11 j hj
      refine ⟨o, ?_⟩
      simp only [upd_app]
      split
      · rename_i hji; subst hji; rw [h1] at hk; cases hk
      · exact hk
  | start =>
    obtain ⟨i, q, r, t, x, y, h1, h2, h3, rfl⟩ := start_ok he
    obtain ⟨a1, a2, a3, a4, a5, a6, a7, a8, a9, a10, a11⟩ := h
    constructor
    · intro j hj r' h' w' hc
      simp only [upd_app] at hj
      split at hj
      · cases hj
      · exact a1 j hj r' h' w' (by simpa using hc)
    · intro j r1 h1 w1 r2 h2 w2 m1 m2
      exact a2 j r1 h1 w1 r2 h2 w2 (by simpa using m1) (by simpa using m2)
    · intro j hj
      simp only [upd_app]
      split
      · exact trivial
      · exact a3 j (by simpa using hj)
    · rw [awaits_snoc]; simpa [Ev.awaited] using a4
    · intro j r' h' w' hj
      simp only [upd_app] at hj
      split at hj
      · cases hj
      · obtain ⟨p, m, rfl⟩ := a5 _ _ _ _ hj
        exact ⟨p, m ++ [.start], by simp⟩
    · intro j r' t x' y' hj
      simp only [upd_app] at hj
      split at hj
      · cases hj
      · obtain ⟨a, b, hh', w', rfl, h⟩ := a6 _ _ _ _ _ hj
        exact ⟨a, b ++ [_], hh', w', by simp; rfl, h⟩
    · intro j o hj
      simp only [upd_app] at hj
      split at hj
      · rename_i hji; subst hji; cases hj
        obtain ⟨a, b, hh, w, hes, hm, hx, hy, ht⟩ := a6 _ _ _ _ _ h3
        refine ⟨a, r, hh, w, b, [], by simp [hes], hm, ?_, ?_⟩
        · have ho := g.order
          have hn := g.n3
          rw [h1] at hn
          have e1 : awaits es = awaits a ++ j :: awaits b := by
            rw [hes, awaits_append]; simp [awaits, Ev.awaited]
          have e2 : starts es = starts a + starts b := by
            rw [hes, starts_append]; simp [starts, Ev.isStart]
          rw [h1, h2, e1] at ho
          have hnd : (awaits a ++ j :: awaits b).Nodup := e1 ▸ a4
          have n1 : j ∉ awaits a := fun hc =>
            (List.nodup_append.1 hnd).2.2 j hc j (by simp) rfl
          have n2 : j ∉ s.told.map Prod.fst ++ s.posted ++ (Option.none : Option Nat).toList :=
            fun hc => by
              rw [← ho] at hnd
              exact (List.nodup_append.1 hnd).2.2 j hc j (by simp) rfl
          have := (split_unique ho n2 n1).1
          rw [← this, ← e2, ← hn]
          simp
        · have hcount : s.tok r = a.countP (Ev.cuts r) + b.countP (Ev.cuts r) := by
            rw [g.htok, hes, List.countP_append]; simp [Ev.cuts]
          have hc := cut_iff r b
          unfold St.take
          by_cases hz : b.countP (Ev.cuts r) = 0
          · right
            refine ⟨fun h => (hc.1 h) hz, ?_⟩
            rw [if_pos (by omega), hx, hy]
          · left
            exact ⟨hc.2 hz, by rw [if_neg (by omega)]⟩
      · exact (a7 _ _ hj).snoc _
    · intro j o hj
      have := a8 j o hj
      simp only [upd_app]
      split
      · rename_i hji; subst hji; rw [h3] at this; cases this
      · exact this
    · intro j hj
      have hji : j ≠ i := by
        intro hji; subst hji
        have ho := g.order
        rw [h1, h2] at ho
        have := ho ▸ a4
        have := (List.nodup_append.1 this).2.1
        exact (List.nodup_cons.1 this).1 hj
      simp only [upd_app, if_neg hji]
      exact a9 j (by rw [h2]; simp [show j ∈ q from hj])
    · intro j hj
      cases hj
      exact ⟨_, if_pos rfl⟩
    · intro j hj
      obtain ⟨o, hk⟩ := a11 j hj
      refine ⟨o, ?_⟩
      simp only [upd_app]
      split
      · rename_i hji; subst hji; rw [h3] at hk; cases hk
      · exact hk
  | finish =>
    obtain ⟨i, h1, rfl⟩ := finish_ok he
    have k := h.frame (s' := s) (e := .finish) rfl rfl rfl rfl rfl (by simp) (by simp)
    obtain ⟨a1, a2, a3, a4, a5, a6, a7, a8, a9, a10, a11⟩ := k
    refine ⟨a1, a2, a3, a4, a5, a6, a7, a8, a9, by simp, ?_⟩
    intro j hj
    rcases List.mem_append.1 hj with hj | hj
    · exact a11 j hj
    · cases List.mem_singleton.1 hj; exact a10 _ h1
  | resume =>
    obtain ⟨i, q, o, h1, h2, rfl⟩ := resume_ok he
    have k := h.frame (s' := s) (e := .resume) rfl rfl rfl rfl rfl (by simp) (by simp)
    obtain ⟨a1, a2, a3, a4, a5, a6, a7, a8, a9, a10, a11⟩ := k
    refine ⟨a1, a2, a3, a4, a5, a6, a7, ?_, a9, a10, ?_⟩
    · intro j o' hj
      rcases List.mem_append.1 hj with hj | hj
      · exact a8 j o' hj
      · cases List.mem_singleton.1 hj; exact h2
    · intro j hj
      exact a11 j (by rw [h1]; simp [show j ∈ q from hj])

theorem run_snoc (v : Nat → Nat) (es : List Ev) (e : Ev) :
    run v (es ++ [e]) = (run v es).step e := by simp [run]

theorem run_append (v : Nat → Nat) (a b : List Ev) :
    run v (a ++ b) = b.foldl Res.step (run v a) := by simp [run]

theorem fold_ub (b : List Ev) : b.foldl Res.step .ub = .ub := by
  induction b with
  | nil => rfl
  | cons _ _ ih => exact ih

theorem fold_stuck (b : List Ev) : b.foldl Res.step .stuck = .stuck := by
  induction b with
  | nil => rfl
  | cons _ _ ih => exact ih

theorem fold_inv (v : Nat → Nat) : ∀ (b pre : List Ev) (s s' : St), Inv1 v pre s → Inv2 v pre s →
    b.foldl Res.step (.ok s) = .ok s' → Inv1 v (pre ++ b) s' ∧ Inv2 v (pre ++ b) s'
  | [], pre, s, s', h1, h2, h => by cases h; simpa using ⟨h1, h2⟩
  | e :: b, pre, s, s', h1, h2, h => by
    rw [List.foldl_cons] at h
    change b.foldl Res.step (s.step e) = _ at h
    cases hs : s.step e with
    | stuck => rw [hs, fold_stuck] at h; cases h
    | ub => rw [hs, fold_ub] at h; cases h
    | ok t =>
      rw [hs] at h
      have := fold_inv v b (pre ++ [e]) t s' (h1.step hs) (h2.step h1 hs) h
      simpa using this

theorem run_inv {v : Nat → Nat} {es : List Ev} {s : St} (h : run v es = .ok s) :
    Inv1 v es s ∧ Inv2 v es s := by
  simpa using fold_inv v es [] (init v) s (Inv1.ini v) (Inv2.ini v) h

/-- A run that goes well went well before. -/
theorem run_prefix {v : Nat → Nat} {a b : List Ev} {s : St} (h : run v (a ++ b) = .ok s) :
    ∃ t, run v a = .ok t := by
  rw [run_append] at h
  cases hs : run v a with
  | stuck => rw [hs, fold_stuck] at h; cases h
  | ub => rw [hs, fold_ub] at h; cases h
  | ok t => exact ⟨t, rfl⟩

end Cobalt.Resv
