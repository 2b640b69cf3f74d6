import Verif.Net.Pass
/-! Helper: coroutines that stop early. -/
namespace Cobalt.Net
open Chan (upd)

theorem trunc_proper {N : Prog} (hN : N.proper) (L : Nat → Nat) : (N.trunc L).proper := by
  constructor
  · intro p h c ha
    simp only [Prog.trunc] at ha ⊢
    split at ha
    · exact hN.read _ _ _ ha
    · cases ha
  · intro p h c v ha
    simp only [Prog.trunc] at ha ⊢
    split at ha
    · exact hN.write _ _ _ _ ha
    · cases ha
  · intro p h c ha
    simp only [Prog.trunc] at ha ⊢
    split at ha
    · exact hN.close _ _ _ ha
    · cases ha

theorem trunc_act {N : Prog} {L : Nat → Nat} {p : Nat} {h : List Res} (hl : h.length < L p) :
    (N.trunc L).act p h = N.act p h := by
  simp [Prog.trunc, hl]

theorem trunc_done {N : Prog} {L : Nat → Nat} {p : Nat} {h : List Res} (hl : h.length ≤ L p) :
    done ((N.trunc L).act p) h = done (N.act p) h := by
  unfold done
  apply List.map_congr_left
  intro i hi
  apply trunc_act
  have := List.mem_range.1 hi
  rw [List.length_take]; omega

theorem trunc_received {N : Prog} {L : Nat → Nat} {p c : Nat} {h : List Res} (hl : h.length ≤ L p) :
    (received ((N.trunc L).act p) c h).length = (received (N.act p) c h).length := by
  rw [received_length, received_length, trunc_done hl]

/-- What the coroutines do when they stop early they can do when they do not. -/
theorem trunc_run (N : Prog) (L : Nat → Nat) (cap : Nat → Nat) (es : List Ev) :
    ∃ es', run (N.trunc L) cap es = run N cap es' := by
  induction es using snoc_ind with
  | h0 => exact ⟨[], rfl⟩
  | h1 es e ih =>
    obtain ⟨es', h⟩ := ih
    rw [run_snoc, h]
    cases e with
    | run c k => exact ⟨es' ++ [.run c k], by rw [run_snoc]; rfl⟩
    | go p conn =>
      by_cases hl : ((run N cap es').hist p).length < L p
      · refine ⟨es' ++ [.go p conn], ?_⟩
        rw [run_snoc]
        simp only [St.step]
        rw [trunc_act hl]
        split
        · cases N.act p ((run N cap es').hist p) <;> rfl
        · rfl
      · refine ⟨es', ?_⟩
        have : (N.trunc L).act p ((run N cap es').hist p) = .stop := by simp [Prog.trunc, hl]
        simp only [St.step]
        rw [this]
        split <;> rfl

theorem Passes.trunc {N : Prog} {cap L : Nat → Nat} {H : Nat → List Res} (h : Passes N cap H)
    (hL : ∀ p, (H p).length ≤ L p) : Passes (N.trunc L) cap H := by
  have add : ∀ {H : Nat → List Res} {p : Nat} {x : Res}, (∀ q, (upd H p (H p ++ [x]) q).length ≤ L q) →
      (∀ q, (H q).length ≤ L q) ∧ (H p).length < L p := by
    intro H p x h
    refine ⟨fun q => Nat.le_trans ((grow_add H p x).le q).length_le (h q), ?_⟩
    have := h p
    rw [upd_self, List.length_append, List.length_singleton] at this
    omega
  induction h with
  | start => exact .start
  | @close H p c h hc ih =>
    obtain ⟨a, b⟩ := add hL
    exact .close (ih a) (by rw [trunc_act b]; exact hc)
  | @put H p c v h hw ho hr ih =>
    obtain ⟨a, b⟩ := add hL
    refine .put (ih a) (by rw [trunc_act b]; exact hw) (by rw [trunc_done (a p)]; exact ho) ?_
    rw [trunc_done (a p)]
    have e := trunc_received (N := N) (c := c) (a (N.rd c))
    have e' : (N.trunc L).rd c = N.rd c := rfl
    rw [e', e]; exact hr
  | @get H p c v h hr hv ih =>
    obtain ⟨a, b⟩ := add hL
    refine .get (c := c) (ih a) (by rw [trunc_act b]; exact hr) ?_
    have e' : (N.trunc L).wr c = N.wr c := rfl
    rw [e', trunc_done (a _), trunc_received (a p)]; exact hv
  | @ended H p c h hr hs he ih =>
    obtain ⟨a, b⟩ := add hL
    have e' : (N.trunc L).wr c = N.wr c := rfl
    refine .ended (c := c) (ih a) (by rw [trunc_act b]; exact hr) ?_ ?_
    · rw [e', trunc_done (a _)]; exact hs
    · rw [e', trunc_done (a _), trunc_received (a p)]; exact he
  | @shut H p c v h hw hs ih =>
    obtain ⟨a, b⟩ := add hL
    exact .shut (c := c) (v := v) (ih a) (by rw [trunc_act b]; exact hw) (by rw [trunc_done (a _)]; exact hs)
  | @meet H p q c v h hr hw ho he ih =>
    have hqp := Meets.ne hr hw
    have a : ∀ r, (H r).length ≤ L r := fun r => Nat.le_trans ((grow_meet H hqp _ _).le r).length_le (hL r)
    have bp := hL p
    have bq := hL q
    rw [upd_self, List.length_append, List.length_singleton] at bq
    rw [upd_ne _ _ hqp.symm, upd_self, List.length_append, List.length_singleton] at bp
    refine .meet (c := c) (ih a) (by rw [trunc_act (by omega)]; exact hr) (by rw [trunc_act (by omega)]; exact hw)
      (by rw [trunc_done (a _)]; exact ho) ?_
    rw [trunc_done (a _), trunc_received (a p)]; exact he

theorem run_len {N : Prog} (hN : N.proper) (L cap : Nat → Nat) (es : List Ev) (p : Nat) :
    ((run (N.trunc L) cap es).hist p).length ≤ L p := by
  have hf := C110_results (N.trunc L) (trunc_proper hN L) cap es p
  generalize (run (N.trunc L) cap es).hist p = h at *
  apply Classical.byContradiction
  intro hn
  have h1 := hf (h.take (L p)) (h[L p]'(by omega))
    (by rw [← List.take_succ_eq_append_getElem (by omega)]; exact List.take_prefix _ _)
  unfold fit at h1
  have : (N.trunc L).act p (h.take (L p)) = .stop := by
    simp only [Prog.trunc]; rw [if_neg (by rw [List.length_take]; omega)]
  rw [this] at h1
  exact h1

theorem Meets.passes {N : Prog} (hN : N.proper) {H : Nat → List Res} (h : Meets N H) : Passes N (fun _ => 0) H := by
  induction h with
  | start => exact .start
  | close h hc ih => exact .close ih hc
  | shut h hw hs ih => exact .shut ih hw hs
  | @ended H p c h hr hs ih =>
    refine .ended ih hr hs ?_
    have := (Meets.mi hN h).cls c hs
    rw [hN.read _ _ _ hr] at this
    rw [received_length]; exact this
  | @meet H p q c v h hr hw ho ih =>
    refine .meet ih hr hw ho ?_
    have := (Meets.mi hN h).opn c (by rw [hN.write _ _ _ _ hw]; exact ho)
    rw [hN.read _ _ _ hr, hN.write _ _ _ _ hw] at this
    rw [received_length, sent_open ho]; exact this.symm

theorem Passes.meets {N : Prog} (hN : N.proper) {H : Nat → List Res} (h : Passes N (fun _ => 0) H) : Meets N H := by
  induction h with
  | start => exact .start
  | close h hc ih => exact .close ih hc
  | shut h hw hs ih => exact .shut ih hw hs
  | ended h hr hs he ih => exact .ended ih hr hs
  | meet h hr hw ho he ih => exact .meet ih hr hw ho
  | @put H p c v h hw ho hr ih =>
    exfalso
    have := (Meets.mi hN ih).opn c (by rw [hN.write _ _ _ _ hw]; exact ho)
    rw [hN.write _ _ _ _ hw] at this
    rw [received_length, sent_open ho] at hr
    unfold did at this
    omega
  | @get H p c v h hr hv ih =>
    exfalso
    have hle : (sent c (done (N.act (N.wr c)) (H (N.wr c)))).length ≤ nreads c (done (N.act p) (H p)) := by
      by_cases hs : Act.close c ∈ did N H (N.wr c)
      · have := (Meets.mi hN ih).cls c hs
        rw [hN.read _ _ _ hr] at this
        exact this
      · have := (Meets.mi hN ih).opn c hs
        rw [hN.read _ _ _ hr, ← sent_open hs] at this
        exact Nat.le_of_eq this.symm
    rw [received_length, List.getElem?_eq_none hle] at hv
    cases hv

end Cobalt.Net
