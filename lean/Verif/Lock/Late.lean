import Verif.Lock.Props
/-!
# Lemmas for `LateProps`

include/boost/cobalt/impl/channel.hpp:326-426, src/channel.cpp.
-/
namespace Cobalt.Lock

open Chan (Status Tok upd)
open VChan (WF Obs Res)

/-- How many of those that are scheduled have not been cancelled. -/
def woken (s : St) : Nat := s.ch.posted.countP fun
  | .w i => !(s.ch.W i).cancelled
  | .r _ => false

theorem woken_eq {s : St} (h : Ok s.ch) : woken s = s.ch.posted.countP s.ch.puts := by
  refine Chan.countP_eq fun x _ => ?_
  cases x with
  | r i => rfl
  | w i => simp [VChan.St.puts, h.dir]

/-- Running one of those scheduled moves it from the schedule to the inside. -/
theorem Inv.total {k : BitVec 64} {s : St} {l : List Nat} (h : Inv k s l) (hN : s.users < 2 ^ 64) (m : Nat) :
    (s.step (.run m)).ch.n.toNat + (s.step (.run m)).ch.posted.countP (s.step (.run m)).ch.puts =
      s.ch.n.toNat + s.ch.posted.countP s.ch.puts ∧
    (s.step (.run m)).ch.posted = s.ch.posted.eraseIdx m := by
  have ec0 : (s.step (.run m)).ch = s.ch.steps [.run m] := rfl
  rcases hk : s.ch.posted[m]? with _ | t
  · have e : s.ch.steps [.run m] = s.ch := by
      rw [steps_one]
      simp [VChan.St.step, h.ok.ub, VChan.St.run, hk]
    rw [ec0, e]
    refine ⟨rfl, ?_⟩
    rw [List.eraseIdx_of_length_le (List.getElem?_eq_none_iff.1 hk)]
  · have hmem : t ∈ s.ch.posted := List.mem_of_getElem? hk
    cases t with
    | r i => exact absurd hmem (h.ok.postR i)
    | w i =>
      have hsusp := (h.ok.wf.wpost i hmem).1
      obtain ⟨u, hu⟩ := h.has i hsusp
      have hul : u < s.users := h.few u (by rw [hu]; simp)
      have hnl : u ∉ l := fun hm => by have := (h.mem u).1 hm; rw [hu] at this; cases this
      have hlen : l.length + 1 ≤ s.users := by
        have : (u :: l).length ≤ (List.range s.users).length :=
          (List.subperm_of_subset (List.nodup_cons.2 ⟨hnl, h.nd⟩) fun v hv => by
          rw [List.mem_range]
          rcases List.mem_cons.1 hv with rfl | hv
          · exact hul
          · exact h.few v (by rw [(h.mem v).1 hv]; simp)).length_le
        simpa using this
      have hn : (s.ch.n + 1#64).toNat = s.ch.n.toNat + 1 := VChan.add_one_toNat (by rw [h.cnt]; omega)
      have hnp : Tok.w i ∉ s.ch.posted.eraseIdx m := fun hx =>
        absurd rfl ((VChan.nodup_eraseIdx_mem h.ok.wf.ndP hk _).1 hx).2
      have hcount := Chan.countP_eraseIdx s.ch.puts s.ch.posted m (.w i) hk
      have hsame : ∀ (c : VChan.St) (w : _), c.W = upd s.ch.W i w →
          (s.ch.posted.eraseIdx m).countP c.puts = (s.ch.posted.eraseIdx m).countP s.ch.puts := by
        intro c w hc
        refine Chan.countP_eq fun x hx => ?_
        cases x with
        | r i => rfl
        | w j =>
          have : j ≠ i := fun e => hnp (e ▸ hx)
          simp [VChan.St.puts, hc, VChan.upd_apply, this]
      rw [steps_run h.ok hk] at ec0
      by_cases hc : (s.ch.W i).cancelled = true
      · rw [if_pos hc] at ec0
        have hp : s.ch.puts (.w i) = false := by simp [VChan.St.puts, hc]
        rw [hp] at hcount
        rw [ec0]
        refine ⟨?_, rfl⟩
        dsimp only
        rw [hsame _ _ rfl]
        simp at hcount
        omega
      · rw [if_neg hc] at ec0
        have hp : s.ch.puts (.w i) = true := by simp [VChan.St.puts, hc, h.ok.dir]
        rw [hp] at hcount
        rw [ec0]
        refine ⟨?_, rfl⟩
        dsimp only
        rw [hsame _ _ rfl, hn]
        simp at hcount
        omega

theorem Inv.totals {k : BitVec 64} (ms : List Nat) : ∀ {s : St} {l : List Nat}, Inv k s l → s.users < 2 ^ 64 →
    (s.steps (ms.map .run)).ch.n.toNat +
      (s.steps (ms.map .run)).ch.posted.countP (s.steps (ms.map .run)).ch.puts =
      s.ch.n.toNat + s.ch.posted.countP s.ch.puts := by
  induction ms with
  | nil => exact fun _ _ => rfl
  | cons m ms ih =>
    intro s l h hN
    obtain ⟨l1, h1, _⟩ := h.step hN (.run m)
    exact (ih h1 (show (s.step _).users < 2 ^ 64 from hN)).trans (h.total hN m).1

theorem Inv.empties {k : BitVec 64} (n : Nat) : ∀ {s : St} {l : List Nat}, Inv k s l → s.users < 2 ^ 64 →
    s.ch.posted.length = n → (s.steps ((List.replicate n 0).map .run)).ch.posted = [] := by
  induction n with
  | zero => exact fun _ _ hl => List.length_eq_zero_iff.1 hl
  | succ n ih =>
    intro s l h hN hl
    obtain ⟨l1, h1, _⟩ := h.step hN (.run 0)
    refine ih h1 (show (s.step _).users < 2 ^ 64 from hN) ?_
    rw [(h.total hN 0).2, List.length_eraseIdx]
    rw [if_pos (by omega)]
    omega

end Cobalt.Lock
