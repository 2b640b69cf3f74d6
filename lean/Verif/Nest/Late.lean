import Verif.Nest.Lemmas
/-! # Which programs can lose an argument -/
namespace Cobalt.Nest

def ok : In := ⟨false, none⟩
/-- It succeeds although it was cancelled. -/
def hit : In := ⟨true, none⟩

theorem tear_can : ∀ (n : Nat) (c : Bool) (ins : List In), (runTear n c ins).can = true → 0 < n
  | 0, _, _, h => by simp [runTear] at h
  | _ + 1, _, _, _ => by omega

theorem not_fails : ∀ (p : Prog) (c : Bool) (ins : List In), (p.run c ins).out = some none →
    p.fails = false
  | .done, _, _, _ => rfl
  | .fail x, _, _, h => by simp [Prog.run] at h
  | .op k, true, _, h => by simp [Prog.run] at h
  | .op k, false, [], h => by simp [Prog.run] at h
  | .op k, false, i :: ins, h => by
    simp only [Prog.run] at h
    split at h
    · simp at h
    · exact not_fails k _ _ h
  | .with_ i b t k, true, ins, h => by simp [Prog.run] at h
  | .with_ i b t k, false, ins, h => by
    have hb := not_fails b false ins
    have hk := not_fails k
    revert h
    refine with_cases (P := fun r => r.out = some none → (Prog.with_ i b t k).fails = false)
      i b t k ins ?_ ?_ ?_ ?_
    · intro _ h; cases h
    · intro _ _ _ h; cases h
    · intro e e' x ho ht hf h; simp at h
    · intro ho ht rk hrk h
      have h2 := hk _ _ (by rw [← hrk]; exact h)
      simp [Prog.fails, hb ho, h2]

theorem can_waits : ∀ (p : Prog) (c : Bool) (ins : List In), (p.run c ins).can = true →
    p.waits = true
  | .done, _, _, h => by simp [Prog.run] at h
  | .fail x, _, _, h => by simp [Prog.run] at h
  | .op k, _, _, _ => rfl
  | .with_ i b t k, true, ins, h => by simp [Prog.run] at h
  | .with_ i b t k, false, ins, h => by
    have hb := can_waits b false ins
    have hk := can_waits k
    revert h
    refine with_cases (P := fun r => r.can = true → (Prog.with_ i b t k).waits = true)
      i b t k ins ?_ ?_ ?_ ?_
    · intro _ h; simp [Prog.waits, hb h]
    · intro _ _ _ h
      rcases Bool.or_eq_true _ _ ▸ h with h | h
      · simp [Prog.waits, hb h]
      · simp [Prog.waits, tear_can _ _ _ h]
    · intro _ _ _ _ _ _ h
      rcases Bool.or_eq_true _ _ ▸ h with h | h
      · simp [Prog.waits, hb h]
      · simp [Prog.waits, tear_can _ _ _ h]
    · intro ho ht rk hrk h
      rcases Bool.or_eq_true _ _ ▸ h with h | h
      · rcases Bool.or_eq_true _ _ ▸ h with h | h
        · simp [Prog.waits, hb h]
        · simp [Prog.waits, tear_can _ _ _ h]
      · simp [Prog.waits, not_fails b _ _ ho, hk _ _ (by rw [← hrk]; exact h)]

theorem late_mono : ∀ (p : Prog), p.late false = true → p.late true = true
  | .done, h => h
  | .fail _, h => h
  | .op _, h => h
  | .with_ i b t k, _ => by simp [Prog.late]

theorem late_of_le (p : Prog) (c d : Bool) (h : c = true → d = true) (hp : p.late c = true) :
    p.late d = true := by
  cases d with
  | true => cases c with
    | true => exact hp
    | false => exact late_mono p hp
  | false => cases c with
    | true => exact absurd (h rfl) (by simp)
    | false => exact hp

theorem leaks_late : ∀ (p : Prog) (c : Bool) (ins : List In), Leaks (p.run c ins).tr →
    p.late c = true
  | .done, _, _, h => by simp [Prog.run, Leaks] at h
  | .fail x, _, _, h => by simp [Prog.run, Leaks] at h
  | .op k, true, _, h => by simp [Prog.run, Leaks] at h
  | .op k, false, [], h => by simp [Prog.run, Leaks] at h
  | .op k, false, i :: ins, h => by
    simp only [Prog.run] at h
    split at h
    · simp [Leaks] at h
    · exact late_of_le k _ _ (fun _ => rfl) (leaks_late k _ _ h)
  | .with_ i b t k, true, ins, h => by simp [Prog.late]
  | .with_ i b t k, false, ins, h => by
    have hb := leaks_late b false ins
    have hk := leaks_late k
    have hT' : ∀ j, .leak j ∉ (runTear t false (b.run false ins).rest).tr := fun j hj => by
      obtain ⟨x, hx⟩ := tear_raises t false (b.run false ins).rest _ hj; cases hx
    revert h
    refine with_cases (P := fun r => Leaks r.tr → (Prog.with_ i b t k).late false = true)
      i b t k ins ?_ ?_ ?_ ?_
    · rintro _ ⟨j, hj⟩
      simp at hj
      simp [Prog.late, hb ⟨j, hj⟩]
    · rintro _ _ _ ⟨j, hj⟩
      simp [hT'] at hj
      simp [Prog.late, hb ⟨j, hj⟩]
    · rintro _ _ _ _ _ _ ⟨j, hj⟩
      simp [hT'] at hj
      simp [Prog.late, hb ⟨j, hj⟩]
    · rintro ho ht rk hrk ⟨j, hj⟩
      simp [hT'] at hj
      rcases hj with hj | hj
      · simp [Prog.late, hb ⟨j, hj⟩]
      · have h1 := hk _ _ (by rw [← hrk]; exact ⟨j, hj⟩)
        have h2 := late_of_le k _ (b.waits || decide (0 < t)) (fun hc => by
          rcases Bool.or_eq_true _ _ ▸ hc with hc | hc
          · simp [can_waits b _ _ hc]
          · simp [tear_can _ _ _ hc]) h1
        simp [Prog.late, not_fails b _ _ ho, h2]

theorem tear_ok : ∀ (n : Nat) (rest : List In),
    runTear n false (List.replicate n ok ++ rest) = ⟨[], some none, false, rest⟩
  | 0, rest => rfl
  | n + 1, rest => by
    simp only [List.replicate_succ, List.cons_append, runTear, ok, tear_ok n rest]
    have := tear_ok n rest
    simp only [ok] at this
    simp [this]

theorem tear_hit : ∀ (n : Nat) (rest : List In),
    runTear (n + 1) false (List.replicate n ok ++ hit :: rest) = ⟨[], some none, true, rest⟩
  | 0, rest => rfl
  | n + 1, rest => by
    have := tear_hit n rest
    rw [List.replicate_succ, List.cons_append, runTear]
    simp only [ok] at this ⊢
    simp [this]

theorem with_ok {i : Nat} {b : Prog} {t : Nat} {k : Prog} {ins r1 r2 : List In}
    {tb tt : List Act} {cb ct : Bool} (hb : b.run false ins = ⟨tb, some none, cb, r1⟩)
    (ht : runTear t false r1 = ⟨tt, some none, ct, r2⟩) :
    (Prog.with_ i b t k).run false ins =
      ⟨.opened i :: (tb ++ .tear i none :: (tt ++ .torn i :: (k.run (cb || ct) r2).tr)),
        (k.run (cb || ct) r2).out, cb || ct || (k.run (cb || ct) r2).can,
        (k.run (cb || ct) r2).rest⟩ := by
  simp [Prog.run, hb, ht, first]

theorem with_leak {i : Nat} {b : Prog} {t : Nat} {k : Prog} {ins : List In}
    (hb : Leaks (b.run false ins).tr) : Leaks ((Prog.with_ i b t k).run false ins).tr := by
  obtain ⟨j, hj⟩ := hb
  refine with_cases (P := fun r => Leaks r.tr) i b t k ins ?_ ?_ ?_ ?_
  · intro _; exact ⟨j, by simp [hj]⟩
  · intro _ _ _; exact ⟨j, by simp [hj]⟩
  · intro _ _ _ _ _ _; exact ⟨j, by simp [hj]⟩
  · intro _ _ _ _; exact ⟨j, by simp [hj]⟩

theorem all_ok : ∀ (p : Prog), p.fails = false → ∃ ins tr, ∀ rest,
    p.run false (ins ++ rest) = ⟨tr, some none, false, rest⟩
  | .done, _ => ⟨[], [], fun _ => rfl⟩
  | .fail _, h => by simp [Prog.fails] at h
  | .op k, h => by
    obtain ⟨ins, tr, hk⟩ := all_ok k h
    refine ⟨ok :: ins, tr, fun rest => ?_⟩
    have := hk rest
    simp [Prog.run, ok, this]
  | .with_ i b t k, h => by
    simp [Prog.fails] at h
    obtain ⟨i1, t1, hb⟩ := all_ok b h.1
    obtain ⟨i2, t2, hk⟩ := all_ok k h.2
    refine ⟨i1 ++ List.replicate t ok ++ i2,
      .opened i :: (t1 ++ .tear i none :: ([] ++ .torn i :: t2)), fun rest => ?_⟩
    have e : i1 ++ List.replicate t ok ++ i2 ++ rest = i1 ++ (List.replicate t ok ++ (i2 ++ rest)) := by
      simp
    rw [e, with_ok (hb _) (tear_ok t _), Bool.or_false, hk rest]
    simp only [Bool.or_false]

/-- A coroutine without operations that has been cancelled: nothing, or an argument is lost. -/
theorem quiet : ∀ (k : Prog), k.waits = false → k.fails = false → ∀ rest,
    Leaks (k.run true rest).tr ∨ k.run true rest = ⟨[], some none, false, rest⟩
  | .done, _, _, _ => Or.inr rfl
  | .fail _, _, h, _ => by simp [Prog.fails] at h
  | .op _, h, _, _ => by simp [Prog.waits] at h
  | .with_ i _ _ _, _, _, _ => Or.inl ⟨i, by simp [Prog.run]⟩

theorem with_quiet {i : Nat} {b : Prog} {t : Nat} {k : Prog} {ins rest : List In}
    {tb tt : List Act} {cb ct : Bool} {r1 : List In} (hb : b.run false ins = ⟨tb, some none, cb, r1⟩)
    (ht : runTear t false r1 = ⟨tt, some none, ct, rest⟩) (hc : (cb || ct) = true)
    (h1 : k.waits = false) (h2 : k.fails = false) :
    Leaks ((Prog.with_ i b t k).run false ins).tr ∨
      ∃ tr, (Prog.with_ i b t k).run false ins = ⟨tr, some none, true, rest⟩ := by
  rw [with_ok hb ht, hc]
  rcases quiet k h1 h2 rest with ⟨j, hj⟩ | h
  · exact Or.inl ⟨j, by simp [hj]⟩
  · right; rw [h]; exact ⟨_, rfl⟩

theorem some_hit : ∀ (p : Prog), p.fails = false → p.waits = true → ∃ ins, ∀ rest,
    Leaks (p.run false (ins ++ rest)).tr ∨
      ∃ tr, p.run false (ins ++ rest) = ⟨tr, some none, true, rest⟩
  | .done, _, h => by simp [Prog.waits] at h
  | .fail _, h, _ => by simp [Prog.fails] at h
  | .op k, h, _ => by
    cases hw : k.waits with
    | true =>
      obtain ⟨ins, hk⟩ := some_hit k h hw
      refine ⟨ok :: ins, fun rest => ?_⟩
      rcases hk rest with hk | ⟨tr, hk⟩
      · left; simpa [Prog.run, ok] using hk
      · right; exact ⟨tr, by simp [Prog.run, ok, hk]⟩
    | false =>
      refine ⟨[hit], fun rest => ?_⟩
      rcases quiet k hw h rest with hk | hk
      · left; simpa [Prog.run, hit] using hk
      · right; exact ⟨[], by simp [Prog.run, hit, hk]⟩
  | .with_ i b t k, h, hw => by
    simp [Prog.fails] at h
    obtain ⟨i1, t1, hb⟩ := all_ok b h.1
    cases hkw : k.waits with
    | true =>
      obtain ⟨i2, hk⟩ := some_hit k h.2 hkw
      refine ⟨i1 ++ List.replicate t ok ++ i2, fun rest => ?_⟩
      have e : i1 ++ List.replicate t ok ++ i2 ++ rest =
          i1 ++ (List.replicate t ok ++ (i2 ++ rest)) := by simp
      rw [e, with_ok (hb _) (tear_ok t _), Bool.or_false]
      rcases hk rest with ⟨j, hj⟩ | ⟨tr, hk⟩
      · exact Or.inl ⟨j, by simp [hj]⟩
      · right; rw [hk]; exact ⟨_, rfl⟩
    | false =>
      cases t with
      | succ t =>
        refine ⟨i1 ++ List.replicate t ok ++ [hit], fun rest => ?_⟩
        have e : i1 ++ List.replicate t ok ++ [hit] ++ rest =
            i1 ++ (List.replicate t ok ++ hit :: rest) := by simp
        rw [e]
        exact with_quiet (hb _) (tear_hit t rest) (by simp) hkw h.2
      | zero =>
        have hbw : b.waits = true := by simpa [Prog.waits, hkw] using hw
        obtain ⟨i3, hb3⟩ := some_hit b h.1 hbw
        refine ⟨i3, fun rest => ?_⟩
        rcases hb3 rest with hl | ⟨tr, hb3⟩
        · exact Or.inl (with_leak hl)
        · exact with_quiet hb3 rfl (by simp) hkw h.2

theorem late_leaks : ∀ (p : Prog),
    (p.late false = true → ∃ ins, Leaks (p.run false ins).tr) ∧
    (p.late true = true → (∀ ins, Leaks (p.run true ins).tr) ∨ ∃ ins, Leaks (p.run false ins).tr)
  | .done => ⟨fun h => by simp [Prog.late] at h, fun h => by simp [Prog.late] at h⟩
  | .fail _ => ⟨fun h => by simp [Prog.late] at h, fun h => by simp [Prog.late] at h⟩
  | .op k => by
    have H : k.late true = true → ∃ ins, Leaks ((Prog.op k).run false ins).tr := fun h => by
      rcases (late_leaks k).2 h with hk | ⟨ins, hk⟩
      · exact ⟨[hit], by simpa [Prog.run, hit] using hk []⟩
      · exact ⟨ok :: ins, by simpa [Prog.run, ok] using hk⟩
    exact ⟨fun h => H h, fun h => Or.inr (H h)⟩
  | .with_ i b t k => by
    refine ⟨fun h => ?_, fun _ => Or.inl fun ins => ⟨i, by simp [Prog.run]⟩⟩
    simp only [Prog.late, Bool.false_or, Bool.or_eq_true, Bool.and_eq_true,
      Bool.not_eq_true'] at h
    rcases h with h | ⟨hf, h⟩
    · obtain ⟨ins, hb⟩ := (late_leaks b).1 h
      exact ⟨ins, with_leak hb⟩
    · obtain ⟨i1, t1, hb⟩ := all_ok b hf
      have right : (∃ ins, Leaks (k.run false ins).tr) →
          ∃ ins, Leaks ((Prog.with_ i b t k).run false ins).tr := by
        rintro ⟨ins, j, hj⟩
        refine ⟨i1 ++ (List.replicate t ok ++ ins), ?_⟩
        rw [with_ok (hb _) (tear_ok t _), Bool.or_false]
        exact ⟨j, by simp [hj]⟩
      cases hs : (b.waits || decide (0 < t)) with
      | false => rw [hs] at h; exact right ((late_leaks k).1 h)
      | true =>
        rw [hs] at h
        rcases (late_leaks k).2 h with hk | hk
        · cases t with
          | succ t =>
            refine ⟨i1 ++ (List.replicate t ok ++ hit :: []), ?_⟩
            obtain ⟨j, hj⟩ := hk []
            rw [with_ok (hb _) (tear_hit t []), Bool.or_true]
            exact ⟨j, by simp [hj]⟩
          | zero =>
            have hbw : b.waits = true := by simpa using hs
            obtain ⟨i3, hb3⟩ := some_hit b hf hbw
            refine ⟨i3 ++ [], ?_⟩
            rcases hb3 [] with hl | ⟨tr, hb3⟩
            · exact with_leak hl
            · obtain ⟨j, hj⟩ := hk []
              rw [with_ok hb3 rfl, Bool.or_false]
              exact ⟨j, by simp [hj]⟩
        · exact right hk

theorem tear_ends : ∀ (n : Nat) (c : Bool) (ins : List In), n ≤ ins.length →
    (runTear n c ins).out ≠ none ∧ ins.length ≤ (runTear n c ins).rest.length + n
  | 0, _, _, _ => by simp [runTear]
  | _ + 1, true, _, _ => by simp [runTear]
  | _ + 1, false, [], h => by simp at h
  | n + 1, false, i :: ins, h => by
    simp only [runTear]
    split
    · simp
    · have := tear_ends n i.cancel ins (by simpa using h)
      exact ⟨this.1, by simp; omega⟩

theorem run_ends : ∀ (p : Prog) (c : Bool) (ins : List In), p.ops ≤ ins.length →
    (p.run c ins).out ≠ none ∧ ins.length ≤ (p.run c ins).rest.length + p.ops
  | .done, _, _, _ => by simp [Prog.run]
  | .fail x, _, _, _ => by simp [Prog.run]
  | .op k, true, _, _ => by simp [Prog.run]
  | .op k, false, [], h => by simp [Prog.ops] at h
  | .op k, false, i :: ins, h => by
    simp only [Prog.run]
    split
    · simp [Prog.ops]
    · have := run_ends k i.cancel ins (by simpa [Prog.ops] using h)
      exact ⟨this.1, by simp [Prog.ops]; omega⟩
  | .with_ i b t k, true, ins, h => by simp [Prog.run]
  | .with_ i b t k, false, ins, h => by
    simp only [Prog.ops] at h ⊢
    obtain ⟨b1, b2⟩ := run_ends b false ins (by omega)
    obtain ⟨t1, t2⟩ := tear_ends t false (b.run false ins).rest (by omega)
    have hk := run_ends k ((b.run false ins).can || (runTear t false (b.run false ins).rest).can)
      (runTear t false (b.run false ins).rest).rest (by omega)
    refine with_cases (P := fun r => r.out ≠ none ∧ ins.length ≤ r.rest.length + (b.ops + t + k.ops))
      i b t k ins ?_ ?_ ?_ ?_
    · intro ho; exact absurd ho b1
    · intro _ _ ht; exact absurd ht t1
    · intro _ _ _ _ _ _; exact ⟨by simp, by dsimp only; omega⟩
    · intro _ _ rk hrk
      rw [← hrk] at hk
      exact ⟨hk.1, by have := hk.2; dsimp only; omega⟩

theorem tear_whole : ∀ (n : Nat) (c : Bool) (ins : List In),
    ((runTear n c ins).out = some none ↔ (n = 0 ∨ c = false) ∧ n ≤ ins.length ∧
      (∀ j x, j < n → ins[j]? = some x → x.res = none) ∧
      ∀ j x, j + 1 < n → ins[j]? = some x → x.cancel = false)
  | 0, _, _ => by simp [runTear]
  | _ + 1, true, _ => by simp [runTear]
  | _ + 1, false, [] => by simp [runTear]
  | n + 1, false, i :: ins => by
    simp only [runTear]
    cases hr : i.res with
    | some x =>
      simp
      intro _ h
      have := h 0 i (by omega) rfl
      rw [hr] at this; cases this
    | none =>
      have ih := tear_whole n i.cancel ins
      dsimp only
      rw [ih]
      constructor
      · rintro ⟨h1, h2, h3, h4⟩
        refine ⟨by simp, by simpa using h2, fun j x hj hx => ?_, fun j x hj hx => ?_⟩
        · cases j with
          | zero => simp at hx; subst hx; exact hr
          | succ j => exact h3 j x (by omega) (by simpa using hx)
        · cases j with
          | zero => simp at hx; subst hx; exact h1.resolve_left (by omega)
          | succ j => exact h4 j x (by omega) (by simpa using hx)
      · rintro ⟨-, h2, h3, h4⟩
        refine ⟨?_, by simpa using h2, fun j x hj hx => h3 (j + 1) x (by omega) (by simpa using hx),
          fun j x hj hx => h4 (j + 1) x (by omega) (by simpa using hx)⟩
        by_cases hn : n = 0
        · exact Or.inl hn
        · exact Or.inr (h4 0 i (by omega) rfl)

end Cobalt.Nest
