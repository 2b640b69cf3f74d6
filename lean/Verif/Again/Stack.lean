import Verif.Again.Quiet
/-! Without transactions there are no loops on behalf of transactions. -/
namespace Cobalt.Comb

/-- The stack stays as it is, or one frame is pushed: that of a loop with end `co`, or
somebody is asked. -/
def Grows (co : Cont) (s t : St) : Prop := t.stack = s.stack ∨
  ∃ f, t.stack = f :: s.stack ∧ (f.tag = .co co ∨ ∃ k, f = .asking k)

theorem startNext_grows {c : Cfg} (hk : c.kind = .race) (co : Cont) (s : St) : Grows co s (s.startNext c) := by
  unfold St.startNext
  split
  · rw [endStart_race hk]; left; unfold St.endStart2; split <;> rfl
  · exact Or.inr ⟨_, rfl, Or.inr ⟨_, rfl⟩⟩

theorem afterStart_grows {c : Cfg} (hk : c.kind = .race) (co : Cont) (s : St) (i : Nat) (d : Bool) :
    Grows co s (s.afterStart c i d) := by
  unfold St.afterStart
  simp only [hk]
  split
  · split
    · exact Or.inl rfl
    · exact startNext_grows hk co s
  · generalize (if s.child i = .finished then (if s.off i then d else true) else false) = b
    cases b
    · exact startNext_grows hk co s
    · left; simp only [if_true]; rw [endStart_race hk]; unfold St.endStart2; split <;> rfl

theorem finish_stack (s : St) (i : Nat) : (s.finish i).stack = s.stack := by
  unfold St.finish; dsimp only; split <;> rfl

theorem done_grows {c : Cfg} (hk : c.kind = .race) (co : Cont) (s : St) (d : Bool) : Grows co s (s.done c co d) := by
  unfold St.done
  split
  · rename_i i b
    dsimp only
    split
    · have := afterStart_grows hk (.finish i b) (s.finish i) i d
      unfold Grows at this ⊢
      rw [finish_stack] at this
      exact this
    · exact Or.inl (finish_stack s i)
  · exact Or.inl rfl
  · left; unfold St.endStart2; split <;> rfl
  · exact Or.inl rfl

theorem contEmit_grows {c : Cfg} (hk : c.kind = .race) (co : Cont) (s : St) (k ct since : Nat) (d : Bool) :
    Grows co s (s.contEmit c k co ct since d) := by
  unfold St.contEmit
  dsimp only
  unfold St.scanEmit
  split
  · exact Or.inr ⟨_, rfl, Or.inl rfl⟩
  · exact done_grows hk co _ d

theorem contIntr_grows {c : Cfg} (hk : c.kind = .race) (co : Cont) (s : St) (k since : Nat) (d : Bool) :
    Grows co s (s.contIntr c k co since d) := by
  unfold St.contIntr
  dsimp only
  unfold St.scanIntr
  split
  · exact Or.inr ⟨_, rfl, Or.inl rfl⟩
  · simp only [Bool.false_eq_true, if_false]
    split
    · exact Or.inl rfl
    · exact contEmit_grows hk co _ _ _ _ d

theorem complete_grows {c : Cfg} (hk : c.kind = .race) (s : St) (i : Nat) (o : Out) (b d : Bool) :
    Grows (.finish i b) s (s.complete c i o b d) := by
  unfold St.complete
  simp only [hk]
  have h1 := (raceReady_frame c { s with child := upd s.child i .running } i o).2.2.2.2.2.1
  have h2 := (raceSuspended_frame c { s with child := upd s.child i .running } i o).2.2.2.2.2.1
  dsimp only at h1 h2
  have h3 := contIntr_grows hk (.finish i b) { (if b = true then St.raceReady c { s with child := upd s.child i .running } i o
    else St.raceSuspended c { s with child := upd s.child i .running } i o) with
      sig := upd (if b = true then St.raceReady c { s with child := upd s.child i .running } i o
        else St.raceSuspended c { s with child := upd s.child i .running } i o).sig i false } 0
    (if b = true then St.raceReady c { s with child := upd s.child i .running } i o
      else St.raceSuspended c { s with child := upd s.child i .running } i o).intd.length d
  unfold Grows at h3 ⊢
  cases b
  · simpa only [Bool.false_eq_true, if_false, h2] using h3
  · simpa only [if_true, h1] using h3

/-- No loop on behalf of a transaction is going on. -/
def Plain (s : St) : Prop := ∀ f ∈ s.stack, ∀ i, f.tag ≠ .co (.txn i)

theorem Plain.inTxn {s : St} (h : Plain s) (i : Nat) : s.inTxn i = false := by
  unfold St.inTxn
  rw [List.any_eq_false]
  intro f hf
  have := h f hf
  cases f with
  | asking | starting => simp
  | intr k co n => cases co <;> simp [Frame.tag] at this ⊢
  | emit k co ct n => cases co <;> simp [Frame.tag] at this ⊢

theorem Grows.plain {co : Cont} {s t : St} (h : Grows co s t) (hp : Plain s) (hc : ∀ i, co ≠ .txn i) : Plain t := by
  rcases h with h | ⟨f, h, h1⟩
  · unfold Plain; rw [h]; exact hp
  · intro g hg i
    rw [h] at hg
    rcases List.mem_cons.1 hg with rfl | hg
    · rcases h1 with h1 | ⟨k, rfl⟩
      · rw [h1]; intro h2; simp only [Tag.co.injEq] at h2; exact hc i h2
      · simp [Frame.tag]
    · exact hp g hg i

theorem Plain.step {c : Cfg} (hk : c.kind = .race) {s : St} (h : Plain s) {e : Ev} (he : ∀ i, e ≠ .txn i)
    (ht : ∀ i x d, e ≠ .thrown i x d) : Plain (s.step c e) := by
  have tail : ∀ (t : St), t.stack = s.stack.tail → Plain t := fun t h1 f hf => h f (List.mem_of_mem_tail (h1 ▸ hf))
  unfold St.step
  split
  · exact h
  cases e with
  | begin =>
    dsimp only
    split
    · exact h
    · exact (startNext_grows hk .ext _).plain (s := { s with phase := .starting, todo := c.order }) h (by simp)
  | ready i o d => exact (complete_grows hk _ i o true d).plain (tail _ rfl) (by simp)
  | notReady i =>
    intro f hf j
    rcases List.mem_cons.1 hf with rfl | hf
    · simp [Frame.tag]
    · exact h f (List.mem_of_mem_tail hf) j
  | thrown i x d => exact absurd rfl (ht i x d)
  | fin i o => exact (complete_grows hk s i o false false).plain h (by simp)
  | txn i => exact absurd rfl (he i)
  | ret d =>
    dsimp only
    split
    · exact h
    · exact h
    · rename_i k rest hs
      exact (afterStart_grows hk .ext { s with stack := rest } k d).plain (tail _ (by rw [hs]; rfl)) (by simp)
    · rename_i k co since rest hs
      split
      · exact h
      · refine (contIntr_grows hk co { s with stack := rest } (k + 1) since d).plain (tail _ (by rw [hs]; rfl)) ?_
        intro i hi
        exact h (.intr k co since) (by rw [hs]; simp) i (by rw [hi]; rfl)
    · rename_i k co ct since rest hs
      split
      · exact h
      · refine (contEmit_grows hk co { s with stack := rest } (k + 1) ct since d).plain (tail _ (by rw [hs]; rfl)) ?_
        intro i hi
        exact h (.emit k co ct since) (by rw [hs]; simp) i (by rw [hi]; rfl)
  | cancel ct => exact (contEmit_grows hk .ext s 0 ct _ false).plain h (by simp)
  | interrupt => exact (contIntr_grows hk .ext s 0 _ false).plain h (by simp)

end Cobalt.Comb
