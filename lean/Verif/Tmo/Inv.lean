import Verif.Tmo.Race
/-! The invariant of the loop. -/
namespace Cobalt.Tmo
open Cobalt.Comb (Ev Out)

/-- What is in the queue while both are awaited. -/
def Queue (s : St) : Prop :=
  (s.rd = .pending ∧ s.tm = .pending ∧ s.queue = []) ∨
  (s.rd = .queued ∧ s.tm = .pending ∧ s.queue = [.read true]) ∨
  (s.rd = .pending ∧ s.tm = .queued ∧ s.queue = [.timer true]) ∨
  (s.rd = .queued ∧ s.tm = .queued ∧ (s.queue = [.read true, .timer true] ∨ s.queue = [.timer true, .read true]))

/-- Between two rounds. -/
def Idle (c : Cfg) (s : St) : Prop :=
  s.tm = .off ∧ ((s.rd = .off ∧ s.buf = [] ∧ s.queue = []) ∨
    (c.kept = true ∧ ((s.rd = .pending ∧ s.queue = []) ∨ (s.rd = .queued ∧ s.queue = [.read true]) ∨
      (s.rd = .done ∧ s.queue = []))))

/-- `ar` has arrived, `dr` was dropped. -/
def Acc (s : St) (ar dr : List Nat) : Prop :=
  ar.length = (got s.out).length + s.buf.length + s.inp.length + dr.length ∧
    (dr = [] → ar = got s.out ++ s.buf ++ s.inp)

inductive Inv (c : Cfg) (s : St) (ar dr : List Nat) : Prop where
  | idle (h1 : s.race = none) (h2 : Idle c s) (h3 : Acc s ar dr)
  | both {w : Bool} {cs : Comb.St} (h1 : s.race = some (w, cs)) (h2 : A cs) (h3 : Queue s) (h4 : Acc s ar dr)
  | read {w : Bool} {cs : Comb.St} {b : Bool} (h1 : s.race = some (w, cs)) (h2 : W 0 1 cs) (h3 : s.queue = [.timer b])
      (h4 : s.tm = .queued) (h5 : s.rd = if c.kept then .done else .off) (h6 : Acc s ar dr)
  | wait {w : Bool} {cs : Comb.St} (h1 : s.race = some (w, cs)) (h2 : W 1 0 cs)
      (h3 : (s.rd = .queued ∧ ∃ b, s.queue = [.read b]) ∨ (c.deaf = true ∧ s.rd = .pending ∧ s.queue = []))
      (h4 : s.tm = .off) (h5 : c.kept = false) (h6 : Acc s ar dr)

theorem got_data (out : List Res) (l : List Nat) : got (out ++ [.data l]) = got out ++ l := by simp [got]
theorem got_timeout (out : List Res) : got (out ++ [.timeout]) = got out := by simp [got]

theorem Inv.init (c : Cfg) : Inv c {} [] [] := .idle rfl ⟨rfl, Or.inl ⟨rfl, rfl, rfl⟩⟩ ⟨rfl, fun _ => rfl⟩

theorem Inv.arrive {c : Cfg} {s : St} {ar dr : List Nat} (h : Inv c s ar dr) (m : Nat) :
    Inv c (s.step c (.arrive m)) (ar ++ [m]) dr := by
  have acc : Acc s ar dr → Acc (s.step c (.arrive m)) (ar ++ [m]) dr := by
    rintro ⟨h1, h2⟩
    refine ⟨by simp [St.step, h1]; omega, fun hd => by simp [St.step, h2 hd]⟩
  cases h with
  | idle h1 h2 h3 => exact .idle h1 h2 (acc h3)
  | both h1 h2 h3 h4 => exact .both h1 h2 h3 (acc h4)
  | read h1 h2 h3 h4 h5 h6 => exact .read h1 h2 h3 h4 h5 (acc h6)
  | wait h1 h2 h3 h4 h5 h6 => exact .wait h1 h2 h3 h4 h5 (acc h6)

theorem Inv.take {c : Cfg} {s : St} {ar dr : List Nat} (h : Inv c s ar dr) : Inv c (s.step c .take) ar dr := by
  show Inv c (s.take c) ar dr
  cases hi : s.inp with
  | nil => rw [show s.take c = s by simp [St.take, hi]]; exact h
  | cons m rest =>
    by_cases hp : s.rd = .pending
    · have acc : Acc s ar dr → Acc (s.take c) ar dr := by
        rintro ⟨h1, h2⟩
        simp only [St.take, hi, hp, if_true]
        rw [hi] at h1 h2
        split
        · refine ⟨by simp at h1 ⊢; omega, fun hd => by simp [h2 hd]⟩
        · refine ⟨by simp at h1 ⊢; omega, fun hd => by simp [h2 hd]⟩
      have hr : (s.take c).race = s.race := by simp only [St.take, hi, hp, if_true]; split <;> rfl
      have ht : (s.take c).tm = s.tm := by simp only [St.take, hi, hp, if_true]; split <;> rfl
      have hq : ((s.take c).rd = .pending ∧ (s.take c).queue = s.queue) ∨
          ((s.take c).rd = .queued ∧ (s.take c).queue = s.queue ++ [.read true]) := by
        simp only [St.take, hi, hp, if_true]
        split
        · exact Or.inr ⟨rfl, rfl⟩
        · exact Or.inl ⟨rfl, rfl⟩
      cases h with
      | idle h1 h2 h3 =>
        refine .idle (hr.trans h1) ⟨ht.trans h2.1, ?_⟩ (acc h3)
        obtain ⟨-, h2⟩ := h2
        rw [hp] at h2
        simp only [reduceCtorEq, false_and, true_and, false_or, or_false] at h2
        right
        refine ⟨h2.1, ?_⟩
        rcases hq with hq | hq
        · exact Or.inl ⟨hq.1, hq.2.trans h2.2⟩
        · exact Or.inr (Or.inl ⟨hq.1, by rw [hq.2, h2.2]; rfl⟩)
      | both h1 h2 h3 h4 =>
        refine .both (hr.trans h1) h2 ?_ (acc h4)
        unfold Queue at h3 ⊢
        rw [hp] at h3
        simp only [reduceCtorEq, false_and, true_and, false_or, or_false] at h3
        rw [ht]
        rcases hq with hq | hq <;> rcases h3 with h3 | h3 <;> rw [h3.2] at hq <;> simp [hq.1, hq.2, h3.1]
      | read h1 h2 h3 h4 h5 h6 => rw [hp] at h5; split at h5 <;> simp at h5
      | wait h1 h2 h3 h4 h5 h6 =>
        refine .wait (hr.trans h1) h2 ?_ (ht.trans h4) h5 (acc h6)
        rw [hp] at h3
        simp only [reduceCtorEq, false_and, true_and, false_or] at h3
        rcases hq with hq | hq
        · exact Or.inr ⟨h3.1, hq.1, hq.2.trans h3.2⟩
        · exact Or.inl ⟨hq.1, true, by rw [hq.2, h3.2]; rfl⟩
    · rw [show s.take c = s by simp [St.take, hi, hp]]; exact h

theorem Inv.expire {c : Cfg} {s : St} {ar dr : List Nat} (h : Inv c s ar dr) : Inv c (s.step c .expire) ar dr := by
  simp only [St.step]
  split
  · rename_i hp
    cases h with
    | idle h1 h2 h3 => simp [Idle, hp] at h2
    | both h1 h2 h3 h4 =>
      refine .both h1 h2 ?_ h4
      unfold Queue at h3 ⊢
      simp only [hp, reduceCtorEq, false_and, true_and, and_false, false_or, or_false] at h3 ⊢
      rcases h3 with h3 | h3 <;> simp [h3.1, h3.2]
    | read h1 h2 h3 h4 h5 h6 => rw [hp] at h4; simp at h4
    | wait h1 h2 h3 h4 h5 h6 => rw [hp] at h4; simp at h4
  · exact h

theorem drops_out {c : Cfg} {s : St} {e : E} {o : List Res} (h : (s.step c e).out = o) (h1 : o ≠ s.out ++ [.timeout]) :
    drops c s e = [] := by
  unfold drops; rw [if_neg (fun hx => h1 (h.symm.trans hx.2))]

theorem drops_same {c : Cfg} {s : St} {e : E} (h : (s.step c e).out = s.out) : drops c s e = [] :=
  drops_out h (by simp)

theorem drops_data {c : Cfg} {s : St} {e : E} {l : List Nat} (h : (s.step c e).out = s.out ++ [.data l]) :
    drops c s e = [] := drops_out h (by simp)

theorem drops_kept {c : Cfg} {s : St} {e : E} (h : c.kept = true) : drops c s e = [] := by simp [drops, h]

theorem drops_buf {c : Cfg} {s : St} {e : E} (h : s.buf = []) : drops c s e = [] := by simp [drops, h]

theorem take_out (c : Cfg) (s : St) : (s.take c).out = s.out := by
  unfold St.take
  split
  · rfl
  · split
    · dsimp only; split <;> rfl
    · rfl

theorem Inv.drops_go {c : Cfg} {s : St} {ar dr : List Nat} (h : Inv c s ar dr) (swap imm exp d : Bool) :
    drops c s (.go swap imm exp d) = [] := by
  have stay : ∀ {r}, s.race = some r → drops c s (.go swap imm exp d) = [] := by
    intro r hr; exact drops_same (by simp [St.step, hr])
  cases h with
  | both h1 => exact stay h1
  | read h1 => exact stay h1
  | wait h1 => exact stay h1
  | idle h1 h2 h3 =>
    cases hk : c.kept with
    | true => exact drops_kept hk
    | false =>
      simp only [Idle, hk, Bool.false_eq_true, false_and, or_false] at h2
      exact drops_buf h2.2.2.1

theorem Inv.go {c : Cfg} {s : St} {ar dr : List Nat} (h : Inv c s ar dr) (swap imm exp d : Bool) :
    Inv c (s.step c (.go swap imm exp d)) ar dr := by
  cases hr : s.race with
  | some r => rw [show s.step c (.go swap imm exp d) = s by simp [St.step, hr]]; exact h
  | none =>
    cases h with
    | both h1 => rw [hr] at h1; simp at h1
    | read h1 => rw [hr] at h1; simp at h1
    | wait h1 => rw [hr] at h1; simp at h1
    | idle h1 h2 h3 =>
      obtain ⟨h2, h4⟩ := h2
      obtain ⟨h5, h6⟩ := h3
      have cut : ∀ n, s.inp.length = (s.inp.take n).length + (s.inp.drop n).length := by
        intro n; simp only [List.length_take, List.length_drop]; omega
      cases hk : c.kept with
      | false =>
        simp only [hk, Bool.false_eq_true, false_and, or_false] at h4
        obtain ⟨h7, h8, h9⟩ := h4
        rw [h8] at h5 h6
        simp only [List.length_nil, List.append_nil, Nat.add_zero] at h5 h6
        simp only [St.step, hr, hk, Bool.false_eq_true, false_and, if_false]
        by_cases hi : imm = true ∧ c.need ≤ s.inp.length
        · cases swap with
          | false =>
            rw [goRead hk imm exp d hi.1 hi.2]
            refine .idle rfl ⟨rfl, Or.inl ⟨rfl, rfl, h9⟩⟩ ⟨?_, fun hd => ?_⟩
            · have := cut c.need
              simp only [got_data, List.length_append, List.length_nil] at this ⊢; omega
            · simp [got_data, h6 hd]
          | true =>
            cases exp with
            | true =>
              rw [goExp hk imm d]
              exact .idle rfl ⟨rfl, Or.inl ⟨rfl, rfl, h9⟩⟩ ⟨by simp [got_timeout, h5], fun hd => by simp [got_timeout, h6 hd]⟩
            | false =>
              obtain ⟨cs, h10, h11⟩ := goExpRead hk imm d hi.1 hi.2 (s := s)
              rw [h11]
              refine .read rfl h10 (by simp [h9]; rfl) rfl (by simp [hk]) ⟨?_, fun hd => ?_⟩
              · have := cut c.need
                dsimp only; omega
              · simp [h6 hd]
        · cases exp with
          | false =>
            obtain ⟨cs, h10, h11⟩ := goBoth hk imm d swap hi (s := s)
            rw [h11]
            exact .both rfl h10 (Or.inl ⟨rfl, rfl, h9⟩) ⟨by simp [h8, h5], fun hd => by simp [h8, h6 hd]⟩
          | true =>
            cases swap with
            | true =>
              rw [goExp hk imm d]
              exact .idle rfl ⟨rfl, Or.inl ⟨rfl, rfl, h9⟩⟩ ⟨by simp [got_timeout, h5], fun hd => by simp [got_timeout, h6 hd]⟩
            | false =>
              obtain ⟨cs, h10, h11⟩ := goReadExp hk imm d hi (s := s)
              rw [h11]
              have ha : Acc s ar dr := ⟨by simp [h8, h5], fun hd => by simp [h8, h6 hd]⟩
              simp only [St.cancel, if_true, true_and]
              split
              · exact .wait rfl h10 (Or.inl ⟨rfl, false, by simp [h9]⟩) h2 hk ha
              · rename_i hde
                exact .wait rfl h10 (Or.inr ⟨by simpa using hde, rfl, h9⟩) h2 hk ha
      | true =>
        -- the promise that is awaited
        have key : ∀ t : St, t.race = none → t.tm = .off → Acc t ar dr →
            ((t.rd = .pending ∧ t.queue = []) ∨ (t.rd = .queued ∧ t.queue = [.read true]) ∨
              (t.rd = .done ∧ t.queue = [])) → Inv c (St.feed c imm exp d swap t {} .begin) ar dr := by
          intro t t1 t2 t3 t4
          by_cases hd : t.rd = .done
          · have t5 : t.queue = [] := by simpa [hd] using t4
            cases swap with
            | false =>
              rw [keptRead hk imm exp d hd]
              refine .idle rfl ⟨rfl, Or.inl ⟨rfl, rfl, t5⟩⟩ ⟨?_, fun hd => ?_⟩
              · have := t3.1; simp only [got_data, List.length_append, List.length_nil]; omega
              · simp [got_data, t3.2 hd]
            | true =>
              cases exp with
              | true =>
                rw [keptExp hk imm d true (Or.inl rfl)]
                exact .idle rfl ⟨rfl, Or.inr ⟨hk, t4⟩⟩ ⟨by simp [got_timeout, t3.1], fun hd => by simp [got_timeout, t3.2 hd]⟩
              | false =>
                obtain ⟨cs, h10, h11⟩ := keptExpRead hk imm d hd (s := t)
                rw [h11]
                exact .read rfl h10 (by simp [t5]; rfl) rfl (by simp [hk, hd]) t3
          · cases exp with
            | true =>
              rw [keptExp hk imm d swap (Or.inr hd)]
              exact .idle rfl ⟨rfl, Or.inr ⟨hk, t4⟩⟩ ⟨by simp [got_timeout, t3.1], fun hd => by simp [got_timeout, t3.2 hd]⟩
            | false =>
              obtain ⟨cs, h10, h11⟩ := keptBoth hk imm d swap hd (s := t)
              rw [h11]
              refine .both rfl h10 ?_ t3
              rcases t4 with t4 | t4 | t4
              · exact Or.inl ⟨t4.1, rfl, t4.2⟩
              · exact Or.inr (Or.inl ⟨t4.1, rfl, t4.2⟩)
              · exact absurd t4.1 hd
        simp only [St.step, hr, hk, true_and]
        rcases h4 with ⟨h7, h8, h9⟩ | ⟨-, h4⟩
        · rw [if_pos h7]
          rw [h8] at h5 h6
          simp only [List.length_nil, List.append_nil, Nat.add_zero] at h5 h6
          split
          · refine key _ rfl h2 ⟨?_, fun hd => by simp [h6 hd]⟩ (Or.inr (Or.inr ⟨rfl, h9⟩))
            have := cut c.need
            dsimp only; omega
          · exact key _ rfl h2 ⟨by simp [h8, h5], fun hd => by simp [h8, h6 hd]⟩ (Or.inl ⟨rfl, h9⟩)
        · rw [if_neg (by rcases h4 with h4 | h4 | h4 <;> rw [h4.1] <;> simp)]
          exact key s hr h2 ⟨h5, h6⟩ h4

theorem Inv.run {c : Cfg} {s : St} {ar dr : List Nat} (h : Inv c s ar dr) :
    Inv c (s.step c .run) ar (dr ++ drops c s .run) := by
  cases h with
  | idle h1 h2 h3 =>
    obtain ⟨h2, h4⟩ := h2
    have ho : (s.step c .run).out = s.out := by
      rcases h4 with h4 | ⟨-, h4 | h4 | h4⟩ <;> simp [St.step, h4, h1]
    rw [drops_same ho, List.append_nil]
    rcases h4 with h4 | ⟨hk, h4 | h4 | h4⟩
    · rw [show s.step c .run = s by simp [St.step, h4]]; exact .idle h1 ⟨h2, Or.inl h4⟩ h3
    · rw [show s.step c .run = s by simp [St.step, h4]]; exact .idle h1 ⟨h2, Or.inr ⟨hk, Or.inl h4⟩⟩ h3
    · simp only [St.step, h4, h1, hk, if_true]
      exact .idle rfl ⟨h2, Or.inr ⟨hk, Or.inr (Or.inr ⟨rfl, rfl⟩)⟩⟩ h3
    · rw [show s.step c .run = s by simp [St.step, h4]]; exact .idle h1 ⟨h2, Or.inr ⟨hk, Or.inr (Or.inr h4)⟩⟩ h3
  | @both w cs h1 h2 h3 h4 =>
    have readFirst : ∀ rest, s.queue = .read true :: rest →
        ((s.tm = .pending ∧ rest = []) ∨ (s.tm = .queued ∧ rest = [.timer true])) →
        Inv c (s.step c .run) ar (dr ++ drops c s .run) := by
      intro rest hq ht
      obtain ⟨cs', h5, h6⟩ := fin0 (c := c) (swap := w)
        (s := { s with queue := rest, rd := if c.kept then .done else .off }) h2
      simp only [h1] at h6
      have he : s.step c .run = { St.cancel c { s with queue := rest, rd := if c.kept then .done else .off, race := some (w, cs) } 1 with race := some (w, cs') } := by
        simp only [St.step, hq, h1, h2.c0, if_true]
        exact h6
      rw [drops_same (by rw [he]; simp only [St.cancel, Nat.one_ne_zero, if_false]; split <;> rfl), List.append_nil, he]
      rcases ht with ⟨ht, rfl⟩ | ⟨ht, rfl⟩
      · simp only [St.cancel, ht, if_true, Nat.one_ne_zero, if_false]
        exact .read rfl h5 rfl rfl rfl h4
      · simp only [St.cancel, ht, reduceCtorEq, Nat.one_ne_zero, if_false]
        exact .read rfl h5 rfl rfl rfl h4
    have timerFirst : ∀ rest, s.queue = .timer true :: rest →
        ((s.rd = .pending ∧ rest = []) ∨ (s.rd = .queued ∧ rest = [.read true])) →
        Inv c (s.step c .run) ar (dr ++ drops c s .run) := by
      intro rest hq ht
      cases hk : c.kept with
      | true =>
        rw [drops_kept hk, List.append_nil]
        simp only [St.step, hq, h1, h2.c1, if_true]
        rw [fin1k hk h2]
        refine .idle rfl ⟨rfl, Or.inr ⟨hk, ?_⟩⟩ ⟨by simpa [got_timeout] using h4.1, fun hd => by simpa [got_timeout] using h4.2 hd⟩
        rcases ht with ⟨ht, rfl⟩ | ⟨ht, rfl⟩
        · exact Or.inl ⟨ht, rfl⟩
        · exact Or.inr (Or.inl ⟨ht, rfl⟩)
      | false =>
        obtain ⟨cs', h5, h6⟩ := fin1 hk (swap := w) (s := { s with queue := rest, tm := .off }) h2
        simp only [h1] at h6
        have he : s.step c .run = { St.cancel c { s with queue := rest, tm := .off, race := some (w, cs) } 0 with race := some (w, cs') } := by
          simp only [St.step, hq, h1, h2.c1, if_true]
          exact h6
        rw [drops_same (by rw [he]; simp only [St.cancel, if_true]; split <;> rfl), List.append_nil, he]
        rcases ht with ⟨ht, rfl⟩ | ⟨ht, rfl⟩
        · simp only [St.cancel, ht, if_true, true_and]
          split
          · exact .wait rfl h5 (Or.inl ⟨rfl, false, rfl⟩) rfl hk h4
          · rename_i hde
            exact .wait rfl h5 (Or.inr ⟨by simpa using hde, rfl, rfl⟩) rfl hk h4
        · simp only [St.cancel, ht, reduceCtorEq, false_and, if_true, if_false]
          exact .wait rfl h5 (Or.inl ⟨rfl, true, rfl⟩) rfl hk h4
    rcases h3 with h3 | h3 | h3 | ⟨h3, h5, h6 | h6⟩
    · have he : s.step c .run = s := by simp [St.step, h3]
      rw [drops_same (by rw [he]), List.append_nil, he]
      exact .both h1 h2 (Or.inl h3) h4
    · exact readFirst [] h3.2.2 (Or.inl ⟨h3.2.1, rfl⟩)
    · exact timerFirst [] h3.2.2 (Or.inl ⟨h3.1, rfl⟩)
    · exact readFirst _ h6 (Or.inr ⟨h5, rfl⟩)
    · exact timerFirst _ h6 (Or.inr ⟨h3, rfl⟩)
  | @read w cs b h1 h2 h3 h4 h5 h6 =>
    have he : s.step c .run = { s with queue := [], race := none, out := s.out ++ [.data s.buf], buf := [], rd := .off, tm := .off } := by
      simp only [St.step, h3, h1, h2.cj, if_true]
      rw [end0 h2]
    rw [drops_data (by rw [he]), List.append_nil, he]
    refine .idle rfl ⟨rfl, Or.inl ⟨rfl, rfl, rfl⟩⟩ ⟨?_, fun hd => ?_⟩
    · have := h6.1; simp only [got_data, List.length_append, List.length_nil]; omega
    · simp [got_data, h6.2 hd]
  | @wait w cs h1 h2 h3 h4 h5 h6 =>
    rcases h3 with ⟨h3, b, hq⟩ | h3
    · have he : s.step c .run = { s with queue := [], race := none, out := s.out ++ [.timeout], buf := [], rd := .off, tm := .off } := by
        simp only [St.step, hq, h1, h2.cj, if_true]
        rw [end1 h5 h2]
      have hd : drops c s .run = s.buf := by
        unfold drops; rw [if_pos ⟨h5, by rw [he]⟩]
      rw [hd, he]
      refine .idle rfl ⟨rfl, Or.inl ⟨rfl, rfl, rfl⟩⟩ ⟨?_, fun hd => ?_⟩
      · have := h6.1; simp only [got_timeout, List.length_append, List.length_nil]; omega
      · simp only [List.append_eq_nil_iff] at hd
        simp [got_timeout, h6.2 hd.1, hd.2]
    · have he : s.step c .run = s := by simp [St.step, h3]
      rw [drops_same (by rw [he]), List.append_nil, he]
      exact .wait h1 h2 (Or.inr h3) h4 h5 h6

theorem Inv.step {c : Cfg} {s : St} {ar dr : List Nat} (h : Inv c s ar dr) (e : E) :
    Inv c (s.step c e) (ar ++ arrived [e]) (dr ++ drops c s e) := by
  cases e with
  | arrive m => rw [drops_same rfl, List.append_nil]; exact h.arrive m
  | go a b f d => rw [h.drops_go, List.append_nil]; simpa [arrived] using h.go a b f d
  | take => rw [drops_same (show (s.step c .take).out = s.out from take_out c s), List.append_nil]; simpa [arrived] using h.take
  | expire =>
    rw [drops_same (by simp only [St.step]; split <;> rfl), List.append_nil]
    simpa [arrived] using h.expire
  | run => simpa [arrived] using h.run

theorem Inv.steps {c : Cfg} : ∀ (es : List E) {s : St} {ar dr : List Nat}, Inv c s ar dr →
    Inv c (es.foldl (St.step c) s) (ar ++ arrived es) (dr ++ dropped c s es)
  | [], s, ar, dr, h => by simpa [arrived, dropped] using h
  | e :: es, s, ar, dr, h => by
    have := Inv.steps es (h.step e)
    have ha : arrived (e :: es) = arrived [e] ++ arrived es := by
      rw [show e :: es = [e] ++ es from rfl]; unfold arrived; rw [List.filterMap_append]
    rw [ha, ← List.append_assoc]
    simpa [dropped, List.append_assoc] using this

theorem inv_exec (c : Cfg) (es : List E) : Inv c (St.exec c es) (arrived es) (dropped c {} es) := by
  have := Inv.steps es (Inv.init c)
  simpa [St.exec] using this

theorem dropped_kept {c : Cfg} (hk : c.kept = true) : ∀ (es : List E) (s : St), dropped c s es = []
  | [], _ => rfl
  | e :: es, s => by
    rw [dropped, dropped_kept hk es, List.append_nil]
    exact drops_kept hk

end Cobalt.Tmo
