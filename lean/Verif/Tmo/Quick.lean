import Verif.Tmo.Inv
/-! A read that is done with one message, taken when the handler is called. -/
namespace Cobalt.Tmo
open Cobalt.Comb (Ev Out)

/-- What has been taken is the loop's. -/
def Calm (s : St) : Prop := s.rd = .pending ∨ s.rd = .queued → s.buf = []

theorem calm_of_off {s : St} (h : s.rd = .off) : Calm s := by
  rintro (h1 | h1) <;> rw [h] at h1 <;> simp at h1

theorem calm_of_buf {s : St} (h : s.buf = []) : Calm s := fun _ => h

theorem Calm.go {c : Cfg} (hk : c.kept = false) {s : St} {ar dr : List Nat} (h : Inv c s ar dr) (hc : Calm s)
    (swap imm exp d : Bool) : Calm (s.step c (.go swap imm exp d)) := by
  cases hr : s.race with
  | some r => rw [show s.step c (.go swap imm exp d) = s by simp [St.step, hr]]; exact hc
  | none =>
    cases h with
    | both h1 => rw [hr] at h1; simp at h1
    | read h1 => rw [hr] at h1; simp at h1
    | wait h1 => rw [hr] at h1; simp at h1
    | idle h1 h2 h3 =>
      obtain ⟨h2, h4⟩ := h2
      simp only [hk, Bool.false_eq_true, false_and, or_false] at h4
      simp only [St.step, hr, hk, Bool.false_eq_true, false_and, if_false]
      by_cases hi : imm = true ∧ c.need ≤ s.inp.length
      · cases swap with
        | false => rw [goRead hk imm exp d hi.1 hi.2]; exact calm_of_buf rfl
        | true =>
          cases exp with
          | true => rw [goExp hk imm d]; exact calm_of_buf rfl
          | false =>
            obtain ⟨cs, -, h11⟩ := goExpRead hk imm d hi.1 hi.2 (s := s)
            rw [h11]; exact calm_of_off rfl
      · cases exp with
        | false =>
          obtain ⟨cs, -, h11⟩ := goBoth hk imm d swap hi (s := s)
          rw [h11]; exact calm_of_buf h4.2.1
        | true =>
          cases swap with
          | true => rw [goExp hk imm d]; exact calm_of_buf rfl
          | false =>
            obtain ⟨cs, -, h11⟩ := goReadExp hk imm d hi (s := s)
            rw [h11]
            apply calm_of_buf
            simp only [St.cancel, if_true]
            split <;> exact h4.2.1

theorem run_read {c : Cfg} (hk : c.kept = false) {s : St} {ar dr : List Nat} (h : Inv c s ar dr) {b : Bool}
    {rest : List H} (hq : s.queue = .read b :: rest) : (s.step c .run).rd = .off := by
  cases h with
  | idle h1 h2 h3 =>
    simp only [Idle, hk, Bool.false_eq_true, false_and, or_false] at h2
    rw [hq] at h2; simp at h2
  | @both w cs h1 h2 h3 h4 =>
    have hb : b = true := by
      rcases h3 with h3 | h3 | h3 | ⟨-, -, h3 | h3⟩ <;> (try replace h3 := h3.2.2) <;> rw [hq] at h3 <;> simp at h3
      · exact h3.1
      · exact h3.1
    subst hb
    obtain ⟨cs', h5, h6⟩ := fin0 (c := c) (swap := w) (s := { s with queue := rest, rd := if c.kept then .done else .off }) h2
    simp only [h1, hk, Bool.false_eq_true, if_false] at h6
    simp only [St.step, hq, h1, h2.c0, if_true, hk, Bool.false_eq_true, if_false]
    rw [h6]
    simp only [St.cancel, Nat.one_ne_zero, if_false]
    split <;> rfl
  | read h1 h2 h3 h4 h5 h6 => rw [hq] at h3; simp at h3
  | wait h1 h2 h3 h4 h5 h6 =>
    simp only [St.step, hq, h1, h2.cj, if_true]
    rw [end1 h5 h2]

theorem Calm.run {c : Cfg} (hk : c.kept = false) {s : St} {ar dr : List Nat} (h : Inv c s ar dr) (hc : Calm s) :
    Calm (s.step c .run) := by
  cases hq : s.queue with
  | nil => rw [show s.step c .run = s by simp [St.step, hq]]; exact hc
  | cons x rest =>
    cases x with
    | read b => exact calm_of_off (run_read hk h hq)
    | timer b =>
      cases h with
      | idle h1 h2 h3 =>
        simp only [Idle, hk, Bool.false_eq_true, false_and, or_false] at h2
        rw [hq] at h2; simp at h2
      | @both w cs h1 h2 h3 h4 =>
        have hb : b = true ∧ (s.rd = .pending ∨ s.rd = .queued) := by
          rcases h3 with h3 | h3 | h3 | ⟨h5, -, h3 | h3⟩
          · rw [h3.2.2] at hq; simp at hq
          · rw [h3.2.2] at hq; simp at hq
          · rw [h3.2.2] at hq; simp at hq; exact ⟨hq.1, Or.inl h3.1⟩
          · rw [h3] at hq; simp at hq
          · rw [h3] at hq; simp at hq; exact ⟨hq.1, Or.inr h5⟩
        obtain ⟨rfl, hb⟩ := hb
        obtain ⟨cs', h5, h6⟩ := fin1 hk (swap := w) (s := { s with queue := rest, tm := .off }) h2
        simp only [h1] at h6
        simp only [St.step, hq, h1, h2.c1, if_true]
        rw [h6]
        apply calm_of_buf
        simp only [St.cancel, if_true]
        split <;> exact hc hb
      | read h1 h2 h3 h4 h5 h6 =>
        simp only [St.step, hq, h1, h2.cj, if_true]
        rw [end0 h2]; exact calm_of_buf rfl
      | wait h1 h2 h3 h4 h5 h6 =>
        rcases h3 with ⟨-, b, h3⟩ | ⟨-, -, h3⟩ <;> rw [hq] at h3 <;> simp at h3

theorem run_timeout {c : Cfg} {s : St} {ar dr : List Nat} (h : Inv c s ar dr) (hk : c.kept = false)
    (ho : (s.step c .run).out = s.out ++ [.timeout]) : s.rd = .queued ∧ ∃ w cs, s.race = some (w, cs) ∧ W 1 0 cs := by
  cases h with
  | idle h1 h2 h3 =>
    simp only [Idle, hk, Bool.false_eq_true, false_and, or_false] at h2
    simp [St.step, h2.2.2.2] at ho
  | @both w cs h1 h2 h3 h4 =>
    exfalso
    have readFirst : ∀ rest, s.queue = .read true :: rest → False := by
      intro rest hq
      obtain ⟨cs', h5, h6⟩ := fin0 (c := c) (swap := w) (s := { s with queue := rest, rd := if c.kept then .done else .off }) h2
      simp only [h1, hk, Bool.false_eq_true, if_false] at h6
      simp only [St.step, hq, h1, h2.c0, if_true, hk, Bool.false_eq_true, if_false] at ho
      rw [h6] at ho
      simp only [St.cancel, Nat.one_ne_zero, if_false] at ho
      split at ho <;> simp at ho
    have timerFirst : ∀ rest, s.queue = .timer true :: rest → False := by
      intro rest hq
      obtain ⟨cs', h5, h6⟩ := fin1 hk (swap := w) (s := { s with queue := rest, tm := .off }) h2
      simp only [h1] at h6
      simp only [St.step, hq, h1, h2.c1, if_true] at ho
      rw [h6] at ho
      simp only [St.cancel, if_true] at ho
      split at ho <;> simp at ho
    rcases h3 with h3 | h3 | h3 | ⟨h3, h5, h6 | h6⟩
    · simp [St.step, h3.2.2] at ho
    · exact readFirst _ h3.2.2
    · exact timerFirst _ h3.2.2
    · exact readFirst _ h6
    · exact timerFirst _ h6
  | read h1 h2 h3 h4 h5 h6 =>
    simp only [St.step, h3, h1, h2.cj, if_true] at ho
    rw [end0 h2] at ho
    simp at ho
  | wait h1 h2 h3 h4 h5 h6 =>
    rcases h3 with h3 | h3
    · exact ⟨h3.1, _, _, h1, h2⟩
    · simp [St.step, h3.2.2] at ho

theorem drops_calm {c : Cfg} {s : St} {ar dr : List Nat} (h : Inv c s ar dr) (hc : Calm s) (e : E) :
    drops c s e = [] := by
  cases e with
  | arrive m => exact drops_same rfl
  | go a b f d => exact h.drops_go ..
  | take => exact drops_same (show (s.step c .take).out = s.out from take_out c s)
  | expire => exact drops_same (by simp only [St.step]; split <;> rfl)
  | run =>
    unfold drops
    split
    · rename_i hk
      exact hc (Or.inr (run_timeout h hk.1 hk.2).1)
    · rfl

theorem take_race (c : Cfg) (s : St) : (s.take c).race = s.race := by
  unfold St.take
  split
  · rfl
  · split
    · dsimp only; split <;> rfl
    · rfl

theorem asked {c : Cfg} (hk : c.kept = false) (hd : c.deaf = false) {s : St} {ar dr : List Nat} (h : Inv c s ar dr)
    (hp : s.rd = .pending) {w : Bool} {cs : Comb.St} (hr : s.race = some (w, cs)) : A cs := by
  cases h with
  | idle h1 => rw [hr] at h1; simp at h1
  | both h1 h2 => rw [hr] at h1; simp only [Option.some.injEq, Prod.mk.injEq] at h1; rw [h1.2]; exact h2
  | read h1 h2 h3 h4 h5 => rw [hp, hk] at h5; simp at h5
  | wait h1 h2 h3 => rw [hp, hd] at h3; simp at h3

theorem dropped_one {c : Cfg} (hk : c.kept = false) (hdf : c.deaf = false) (hn : c.need = 1) : ∀ (es : List E) {s : St} {ar dr : List Nat},
    Inv c s ar dr → Calm s → OneGo c s es → dropped c s es = []
  | [], _, _, _, _, _, _ => rfl
  | .arrive m :: es, s, ar, dr, h, hc, ho => by
    rw [dropped, drops_calm h hc, List.nil_append]
    exact dropped_one hk hdf hn es (h.step _) (fun hx => hc hx) (by simpa [OneGo] using ho)
  | .go a b f d :: es, s, ar, dr, h, hc, ho => by
    rw [dropped, drops_calm h hc, List.nil_append]
    exact dropped_one hk hdf hn es (h.step _) (Calm.go hk h hc a b f d) (by simpa [OneGo] using ho)
  | .expire :: es, s, ar, dr, h, hc, ho => by
    rw [dropped, drops_calm h hc, List.nil_append]
    refine dropped_one hk hdf hn es (h.step _) ?_ (by simpa [OneGo] using ho)
    simp only [St.step]; split
    · exact fun hx => hc hx
    · exact hc
  | .run :: es, s, ar, dr, h, hc, ho => by
    rw [dropped, drops_calm h hc, List.nil_append]
    exact dropped_one hk hdf hn es (h.step _) (Calm.run hk h hc) (by simpa [OneGo] using ho)
  | [.take], s, ar, dr, h, hc, ho => by
    rw [dropped, drops_calm h hc]; rfl
  | .take :: .run :: es, s, ar, dr, h, hc, ho => by
    by_cases hx : s.inp = [] ∨ s.rd ≠ .pending
    · have he : s.step c .take = s := by
        simp only [St.step, St.take]
        rcases hx with hx | hx
        · simp [hx]
        · split
          · rfl
          · simp [hx]
      simp only [OneGo, he] at ho
      rw [if_pos hx] at ho
      rw [dropped, drops_calm h hc, List.nil_append, he, dropped, drops_calm h hc, List.nil_append]
      exact dropped_one hk hdf hn es (h.step _) (Calm.run hk h hc) ho
    · simp only [OneGo] at ho
      rw [if_neg hx] at ho
      have hx1 : s.inp ≠ [] := fun h => hx (Or.inl h)
      have hx2 : s.rd = .pending := Classical.byContradiction fun h => hx (Or.inr h)
      have hq : (s.step c .take).queue = [.read true] := by
        cases hi : s.inp with
        | nil => exact absurd hi hx1
        | cons m rest => simp [St.step, St.take, hi, hx2, hn, ho.1]
      have h1 := h.step .take
      have h2 : drops c (s.step c .take) .run = [] := by
        unfold drops
        split
        · rename_i hk'
          obtain ⟨-, w, cs, h3, h4⟩ := run_timeout h1 hk hk'.2
          rw [show (s.step c .take).race = s.race from take_race c s] at h3
          have h5 := asked hk hdf h hx2 h3
          exact absurd h4.ci (by simp [h5.c1])
        · rfl
      rw [dropped, drops_same (show (s.step c .take).out = s.out from take_out c s), List.nil_append, dropped, h2, List.nil_append]
      exact dropped_one hk hdf hn es (h1.step .run) (calm_of_off (run_read hk h1 hq)) ho.2
  | .take :: .take :: es, s, ar, dr, h, hc, ho => by
    have he : s.step c .take = s := stay (by simpa [OneGo] using ho.1)
    rw [dropped, drops_calm h hc, List.nil_append]
    rw [he]
    exact dropped_one hk hdf hn (.take :: es) h hc (by have := ho.2; rwa [he] at this)
  | .take :: .arrive m :: es, s, ar, dr, h, hc, ho => by
    have he : s.step c .take = s := stay ho.1
    rw [dropped, drops_calm h hc, List.nil_append, he]
    exact dropped_one hk hdf hn (.arrive m :: es) h hc (by have := ho.2; rwa [he] at this)
  | .take :: .expire :: es, s, ar, dr, h, hc, ho => by
    have he : s.step c .take = s := stay ho.1
    rw [dropped, drops_calm h hc, List.nil_append, he]
    exact dropped_one hk hdf hn (.expire :: es) h hc (by have := ho.2; rwa [he] at this)
  | .take :: .go a b f d :: es, s, ar, dr, h, hc, ho => by
    have he : s.step c .take = s := stay ho.1
    rw [dropped, drops_calm h hc, List.nil_append, he]
    exact dropped_one hk hdf hn (.go a b f d :: es) h hc (by have := ho.2; rwa [he] at this)
where
  stay {s : St} (hx : s.inp = [] ∨ s.rd ≠ .pending) : s.step c .take = s := by
    simp only [St.step, St.take]
    rcases hx with hx | hx
    · simp [hx]
    · split
      · rfl
      · simp [hx]

end Cobalt.Tmo
