import Verif.Same.Step
/-! Helper: whole histories of the two channels. -/
namespace Cobalt.Same
open Chan (upd Tok)

theorem Good.awaitR {c : Chan.St} {i : Nat} {conn txn : Bool} {hits : List Tok}
    (h : Good (c.awaitR i conn txn hits)) : Good c := by
  by_cases h1 : (c.R i).status ≠ .fresh
  · unfold Chan.St.awaitR at h; rwa [if_pos h1] at h
  · rw [awaitR_go h1] at h
    unfold goR at h
    suffices Good { c with log := c.log ++ [Chan.Obs.startR i] } from ⟨this.ub, this.asserted, this.closed⟩
    split at h
    · exact h.resumeR
    · split at h
      · exact h.resumeR
      · split at h
        · exact ⟨h.ub, h.asserted, h.closed⟩
        · rename_i w _ _
          split at h
          · have h := h.resumeW
            split at h
            · have h : Good (hits.foldl Chan.St.int
                  (Chan.St.takeFrom { c with log := c.log ++ [Chan.Obs.startR i] } i w txn)) := ⟨h.ub, h.asserted, h.closed⟩
              have h := h.ints
              exact ⟨h.ub, h.asserted, h.closed⟩
            · exact ⟨h.ub, h.asserted, h.closed⟩
          · exact absurd h.ub (by simp)

theorem Good.awaitW {c : Chan.St} {i : Nat} {conn txn : Bool} {hits : List Tok}
    (h : Good (c.awaitW i conn txn hits)) : Good c := by
  by_cases h1 : (c.W i).status ≠ .fresh
  · unfold Chan.St.awaitW at h; rwa [if_pos h1] at h
  · rw [awaitW_go h1] at h
    unfold goW at h
    suffices Good { c with log := c.log ++ [Chan.Obs.startW i] } from ⟨this.ub, this.asserted, this.closed⟩
    split at h
    · exact h.resumeW
    · split at h
      · exact h.resumeW
      · split at h
        · exact ⟨h.ub, h.asserted, h.closed⟩
        · rename_i j _ _
          split at h
          · have h := h.resumeR
            split at h
            · have h : Good (hits.foldl Chan.St.int
                  (Chan.St.giveTo { c with log := c.log ++ [Chan.Obs.startW i] } i j txn)) := ⟨h.ub, h.asserted, h.closed⟩
              have h := h.ints
              exact ⟨h.ub, h.asserted, h.closed⟩
            · exact ⟨h.ub, h.asserted, h.closed⟩
          · exact absurd h.ub (by simp)

theorem Good.step {c : Chan.St} {e : Chan.Ev} (h : Good (c.step e)) : Good c := by
  unfold Chan.St.step at h
  split at h
  · exact h
  · cases e with
    | mkR => exact ⟨h.ub, h.asserted, h.closed⟩
    | mkW => exact ⟨h.ub, h.asserted, h.closed⟩
    | awaitR i conn txn hits => exact Good.awaitR h
    | awaitW i conn txn hits => exact Good.awaitW h
    | run k =>
      dsimp only at h
      unfold Chan.St.run at h
      split at h
      · exact h
      · have h := h.resumeR; exact ⟨h.ub, h.asserted, h.closed⟩
      · have h := h.resumeW; exact ⟨h.ub, h.asserted, h.closed⟩
    | cancelR i =>
      dsimp only at h
      unfold Chan.St.cancelR at h
      split at h <;> exact ⟨h.ub, h.asserted, h.closed⟩
    | cancelW i =>
      dsimp only at h
      unfold Chan.St.cancelW at h
      split at h <;> exact ⟨h.ub, h.asserted, h.closed⟩
    | intR i => exact Good.intR h
    | intW i => exact Good.intW h
    | dropR i =>
      dsimp only at h
      unfold Chan.St.dropR at h
      split at h <;> exact ⟨h.ub, h.asserted, h.closed⟩
    | dropW i =>
      dsimp only at h
      unfold Chan.St.dropW at h
      split at h <;> exact ⟨h.ub, h.asserted, h.closed⟩
    | close => exact absurd h.closed (by simp [Chan.St.close])

theorem Good.steps {c : Chan.St} {es : List Chan.Ev} (h : Good (c.steps es)) : Good c := by
  induction es generalizing c with
  | nil => exact h
  | cons e es ih => exact (ih h).step

theorem steps_both {c : Chan.St} (f : Fit c) (es : List Chan.Ev) (g : Good (c.steps es)) :
    Both (c.steps es) ((empty c).steps (es.map ev)) := by
  induction es generalizing c with
  | nil => exact ⟨rfl, f⟩
  | cons e es ih =>
    have g' : Good ((c.step e).steps es) := g
    have h := step_both f g'.steps
    have := ih h.2 g'
    rw [← h.1] at this
    exact this

theorem exec_both {cap : Nat} (h : cap < 2 ^ 64) {es : List Chan.Ev} (g : Good (Chan.exec cap es)) :
    Both (Chan.exec cap es) (VChan.exec (BitVec.ofNat 64 cap) (es.map ev)) :=
  steps_both (c := Chan.St.init cap) ⟨Nat.zero_le _, h⟩ es g

theorem close_eq (c : Chan.St) : (empty c).close = empty c.close := by
  unfold VChan.St.close Chan.St.close empty
  simp only [VChan.St.mk.injEq, true_and, and_true]
  refine ⟨rfl, ?_, ?_⟩
  · funext i; split <;> simp_all [rop]
  · funext i; split <;> simp_all [wop]

/-- Only `close` closes. -/
theorem closed_wakeW (c : Chan.St) : c.wakeWriter.closed = c.closed := by
  unfold Chan.St.wakeWriter
  split
  · rfl
  · dsimp only; split
    · split <;> rfl
    · rfl

theorem closed_wakeR (c : Chan.St) : c.wakeReader.closed = c.closed := by
  unfold Chan.St.wakeReader
  split
  · rfl
  · dsimp only; split
    · split <;> rfl
    · rfl

theorem closed_resR (c : Chan.St) (i : Nat) : (c.resumeR i).closed = c.closed := by
  unfold Chan.St.resumeR
  split
  · rfl
  · split
    · rfl
    · split
      · rfl
      all_goals rw [closed_wakeW]; rfl

theorem closed_resW (c : Chan.St) (i : Nat) : (c.resumeW i).closed = c.closed := by
  unfold Chan.St.resumeW
  split
  · rfl
  · split
    · rfl
    · split
      all_goals rw [closed_wakeR]; rfl

theorem closed_int (c : Chan.St) (t : Tok) : (c.int t).closed = c.closed := by
  cases t with
  | r i =>
    show (c.intR i).closed = _
    unfold Chan.St.intR
    split
    · rfl
    · split
      · rfl
      · dsimp only; split
        · rw [closed_resR]
        · rfl
  | w i =>
    show (c.intW i).closed = _
    unfold Chan.St.intW
    split
    · rfl
    · split
      · rfl
      · dsimp only; split
        · rw [closed_resW]
        · rfl

theorem closed_ints (ts : List Tok) (c : Chan.St) : (ts.foldl Chan.St.int c).closed = c.closed := by
  induction ts generalizing c with
  | nil => rfl
  | cons t ts ih => rw [List.foldl_cons, ih, closed_int]

theorem closed_step {c : Chan.St} {e : Chan.Ev} (h : e ≠ .close) : (c.step e).closed = c.closed := by
  unfold Chan.St.step
  split
  · rfl
  · cases e with
    | mkR => rfl
    | mkW => rfl
    | awaitR i conn txn hits =>
      dsimp only
      by_cases h1 : (c.R i).status ≠ .fresh
      · unfold Chan.St.awaitR; rw [if_pos h1]
      · rw [awaitR_go h1]
        unfold goR
        split
        · rw [closed_resR]
        · split
          · rw [closed_resR]
          · split
            · rfl
            · split
              · rw [closed_resW]
                dsimp only [Chan.St.handR]
                split
                · rw [closed_ints]; rfl
                · rfl
              · rfl
    | awaitW i conn txn hits =>
      dsimp only
      by_cases h1 : (c.W i).status ≠ .fresh
      · unfold Chan.St.awaitW; rw [if_pos h1]
      · rw [awaitW_go h1]
        unfold goW
        split
        · rw [closed_resW]
        · split
          · rw [closed_resW]
          · split
            · rfl
            · split
              · rw [closed_resR]
                dsimp only [Chan.St.handW]
                split
                · rw [closed_ints]; rfl
                · rfl
              · rfl
    | run k =>
      dsimp only
      unfold Chan.St.run
      split
      · rfl
      · rw [closed_resR]
      · rw [closed_resW]
    | cancelR i => dsimp only; unfold Chan.St.cancelR; split <;> rfl
    | cancelW i => dsimp only; unfold Chan.St.cancelW; split <;> rfl
    | intR i => exact closed_int c (.r i)
    | intW i => exact closed_int c (.w i)
    | dropR i => dsimp only; unfold Chan.St.dropR; split <;> rfl
    | dropW i => dsimp only; unfold Chan.St.dropW; split <;> rfl
    | close => exact absurd rfl h

theorem closed_exec (cap : Nat) (es : List Chan.Ev) (h : Chan.Ev.close ∉ es) : (Chan.exec cap es).closed = false := by
  suffices ∀ c : Chan.St, (c.steps es).closed = c.closed from this _
  intro c
  induction es generalizing c with
  | nil => rfl
  | cons e es ih =>
    show ((c.step e).steps es).closed = _
    rw [ih (fun hm => h (List.mem_cons_of_mem _ hm)), closed_step (fun he => h (by rw [he]; exact List.mem_cons_self ..))]

theorem ev_onto (e : VChan.Ev) : ∃ e', ev e' = e := by
  cases e with
  | mkR => exact ⟨.mkR, rfl⟩
  | mkW => exact ⟨.mkW, rfl⟩
  | awaitR i conn txn hits => exact ⟨.awaitR i conn txn hits, rfl⟩
  | awaitW i conn txn hits => exact ⟨.awaitW i conn txn hits, rfl⟩
  | run k => exact ⟨.run k, rfl⟩
  | cancelR i => exact ⟨.cancelR i, rfl⟩
  | cancelW i => exact ⟨.cancelW i, rfl⟩
  | intR i => exact ⟨.intR i, rfl⟩
  | intW i => exact ⟨.intW i, rfl⟩
  | dropR i => exact ⟨.dropR i, rfl⟩
  | dropW i => exact ⟨.dropW i, rfl⟩
  | close => exact ⟨.close, rfl⟩

end Cobalt.Same
