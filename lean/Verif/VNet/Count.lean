import Verif.VNet.Sim
/-! Helper: the operations of a coroutine, counted. -/
namespace Cobalt.VNet
open Chan (upd)

theorem done_up (N : Prog) (p : Nat) {h : List Net.Res} {n : Nat} (hh : h.map down = List.replicate n .ok) :
    Net.done ((up N).act p) h = ((List.range n).map (N.nth p)).map upA := by
  have hl : h.length = n := by simpa using congrArg List.length hh
  unfold Net.done
  rw [hl, List.map_map]
  apply List.map_congr_left
  intro i hi
  have hi : i < n := List.mem_range.1 hi
  show upA (N.act p ((h.take i).map down)) = upA (N.nth p i)
  rw [List.map_take, hh, List.take_replicate, Nat.min_eq_left (by omega)]
  rfl

theorem no_close (c : Nat) (l : List Act) : Net.Act.close c ∉ l.map upA := by
  intro h
  obtain ⟨a, -, ha⟩ := List.mem_map.1 h
  cases a <;> cases ha

theorem nreads_up (c : Nat) (l : List Act) : Net.nreads c (l.map upA) = (l.filter fun a => a = .read c).length := by
  induction l with
  | nil => rfl
  | cons a l ih =>
    cases a with
    | read c' =>
      by_cases h : c' = c
      · subst h
        simp_all [Net.nreads, upA]
      · simp_all [Net.nreads, upA]
    | write c' => simp_all [Net.nreads, upA]
    | stop => simp_all [Net.nreads, upA]

theorem sent_up (c : Nat) (l : List Act) : (Net.sent c (l.map upA)).length = (l.filter fun a => a = .write c).length := by
  induction l with
  | nil => rfl
  | cons a l ih =>
    cases a with
    | write c' =>
      by_cases h : c' = c
      · subst h
        simp_all [Net.sent, upA]
      · simp_all [Net.sent, upA]
    | read c' => simp_all [Net.sent, upA]
    | stop => simp_all [Net.sent, upA]

theorem times_eq (N : Prog) (p : Nat) (a : Act) (n : Nat) :
    (((List.range n).map (N.nth p)).filter fun x => x = a).length = N.times p a n := by
  unfold Prog.times
  rw [List.filter_map, List.length_map]
  rfl

theorem rest_up {N : Prog} (s : Net.St) : (img s).rest N ↔ s.rest (up N) := by
  have e : ∀ p, (up N).act p (s.hist p) = .stop ↔ N.act p ((img s).hist p) = .stop := by
    intro p
    show upA (N.act p ((s.hist p).map down)) = .stop ↔ N.act p ((s.hist p).map down) = .stop
    cases N.act p ((s.hist p).map down) <;> simp [upA]
  constructor
  · intro h; exact ⟨h.1, fun p hp => (e p).2 (h.2 p hp)⟩
  · intro h; exact ⟨h.1, fun p hp => (e p).1 (h.2 p hp)⟩

theorem received_mem (f : List Net.Res → Net.Act) (c : Nat) {h l : List Net.Res} {x : Net.Res} (hl : l ++ [x] <+: h)
    (hr : f l = .read c) : x ∈ Net.received f c h := by
  obtain ⟨t, rfl⟩ := hl
  unfold Net.received
  rw [List.mem_filterMap]
  refine ⟨l.length, by simp, ?_⟩
  have : ((l ++ [x]) ++ t).take l.length = l := by simp
  rw [this, if_pos hr]; simp

/-- Everything succeeds. -/
theorem up_ok {N : Prog} (hN : N.proper) (cap : Nat → Nat) (es : List Net.Ev) (p : Nat) :
    ((Net.run (up N) cap es).hist p).map down = List.replicate ((Net.run (up N) cap es).hist p).length .ok := by
  rw [List.eq_replicate_iff]
  refine ⟨by simp, ?_⟩
  intro b hb
  obtain ⟨x, hx, rfl⟩ := List.mem_map.1 hb
  obtain ⟨l, t, hlt⟩ := List.append_of_mem hx
  have hl : l ++ [x] <+: (Net.run (up N) cap es).hist p := ⟨t, by rw [hlt]; simp⟩
  have hf := Net.C110_results (up N) (up_proper hN) cap es p l x hl
  have nc : ∀ (q : Nat) (h : List Net.Res) (c : Nat), Net.Act.close c ∉ Net.done ((up N).act q) h := by
    intro q h c hm
    obtain ⟨i, -, hi⟩ := List.mem_map.1 hm
    simp only [up] at hi
    cases h2 : N.act q ((h.take i).map down) <;> rw [h2] at hi <;> cases hi
  unfold Net.fit at hf
  split at hf
  · rename_i c ha
    rcases hf with ⟨v, rfl⟩ | rfl
    · rfl
    · exfalso
      have hm := received_mem _ c hl ha
      obtain ⟨k, e, h1, h2⟩ := Net.C110_stream (up N) (up_proper hN) cap es c p ((up N).wr c)
        ((up_proper hN).read p l c ha) rfl
      rw [h1] at hm
      rcases List.mem_append.1 hm with hm | hm
      · obtain ⟨v, -, hv⟩ := List.mem_map.1 hm; cases hv
      · have : e ≠ 0 := by rintro rfl; cases hm
        exact nc _ _ _ (h2 this).1
  · rw [if_neg (nc _ _ _)] at hf
    rw [hf]; rfl
  · rw [hf]; rfl
  · exact hf.elim

/-- Meetings without values are meetings with values that carry nothing. -/
theorem Meets.up {N : Prog} {k : Nat → Nat} (h : Meets N k) :
    ∃ H, Net.Meets (VNet.up N) H ∧ ∀ p, (H p).map down = List.replicate (k p) .ok := by
  induction h with
  | start => exact ⟨_, .start, fun p => rfl⟩
  | @meet k p q c h hr hw ih =>
    obtain ⟨H, h1, h2⟩ := ih
    have e1 : (VNet.up N).act p (H p) = .read c := by
      show upA (N.act p ((H p).map down)) = _
      rw [h2]; unfold Prog.nth at hr; rw [hr]; rfl
    have e2 : (VNet.up N).act q (H q) = .write c 0 := by
      show upA (N.act q ((H q).map down)) = _
      rw [h2]; unfold Prog.nth at hw; rw [hw]; rfl
    refine ⟨_, .meet h1 e1 e2 (by rw [done_up N q (h2 q)]; exact no_close _ _), fun r => ?_⟩
    unfold upd
    split
    · subst_vars
      rw [List.map_append, h2, List.replicate_succ']; rfl
    · split
      · subst_vars
        rw [List.map_append, h2, List.replicate_succ']; rfl
      · exact h2 r

end Cobalt.VNet
