import Verif.Disp.Inv
/-! How many writes there are in the dispatcher. -/
namespace Cobalt.Disp
open Cobalt.Comb (Out)

/-- The limit of the channel and the number of writes made. -/
def Size (cap n : Nat) (s : St) : Prop := s.ch.cap = cap ∧ s.ch.nextW = n

theorem Size.chan {cap n : Nat} {s : St} (h : Size cap n s) {e : Chan.Ev} (he : e ≠ .mkW) :
    (s.ch.step e).cap = cap ∧ (s.ch.step e).nextW = n := by
  have := Chan.nextW_step s.ch e
  rw [if_neg (by simp [he])] at this
  exact ⟨by rw [this.1, h.1], by rw [this.2, Nat.add_zero, h.2]⟩

theorem Size.answer {cap n : Nat} {s : St} (h : Size cap n s) (d : Bool) (cs : Comb.St) : Size cap n (s.answer d cs).1 := by
  have hR : (s.ch.step (.awaitR s.rd true true [])).cap = cap ∧ (s.ch.step (.awaitR s.rd true true [])).nextW = n := h.chan (by simp)
  have hI : (s.ch.step (.intR s.rd)).cap = cap ∧ (s.ch.step (.intR s.rd)).nextW = n := h.chan (by simp)
  have hC : (s.ch.step (.cancelR s.rd)).cap = cap ∧ (s.ch.step (.cancelR s.rd)).nextW = n := h.chan (by simp)
  unfold St.answer
  dsimp only
  repeat' split
  all_goals first
    | exact h
    | exact hR
    | exact hI
    | exact hC

theorem Size.drive {cap n : Nat} (d : Bool) (k : Comb.Cfg) (f : Nat) : ∀ {s : St} (_ : Size cap n s) (cs : Comb.St),
    Size cap n (St.drive d k f s cs).1 := by
  induction f with
  | zero => intro s h cs; exact h
  | succ f ih =>
    intro s h cs
    have ha := h.answer d cs
    unfold St.drive
    split
    · rename_i t he; rw [he] at ha; exact ha
    · rename_i t e he; rw [he] at ha; exact ih ha _

theorem Size.settle {cap n : Nat} {s : St} (h : Size cap n s) (swap : Bool) (cs : Comb.St) : Size cap n (s.settle swap cs) := by
  unfold St.settle
  split
  · exact h.chan (by simp)
  · exact h

theorem Size.feed {cap n : Nat} {s : St} (h : Size cap n s) (d swap : Bool) (cs : Comb.St) (e : Comb.Ev) :
    Size cap n (St.feed d swap s cs e) := Size.settle (Size.drive _ _ _ h _) _ _

theorem Size.tell {cap n : Nat} {s : St} {ch : Chan.St} (h : ch.cap = cap ∧ ch.nextW = n) : Size cap n (s.chan ch) := by
  have h' : Size cap n { s with ch := ch } := h
  unfold St.chan
  dsimp only
  repeat' split
  all_goals first
    | exact h
    | exact h'.feed _ _ _ _

theorem Size.step {cap n : Nat} {s : St} (h : Size cap n s) (hu : s.ch.ub = false) (e : E) :
    Size cap (n + if e = .sub then 1 else 0) (s.step e) := by
  cases e with
  | go swap d =>
    have hm : (s.ch.step .mkR).cap = cap ∧ (s.ch.step .mkR).nextW = n := h.chan (by simp)
    rw [if_neg (by simp)]
    unfold St.step
    dsimp only
    split
    · exact h
    · exact Size.feed (by exact hm) _ _ _ _
  | yield m =>
    rw [if_neg (by simp)]
    unfold St.step
    dsimp only
    split
    · split
      · exact Size.feed (by exact h) _ _ _ _
      · exact h
    · exact h
  | resume => exact h
  | sub =>
    have h1 : Size cap (n + 1) { s with ch := s.ch.step .mkW } := by
      have := Chan.nextW_step s.ch .mkW
      rw [if_pos ⟨rfl, hu⟩] at this
      exact ⟨by show (s.ch.step .mkW).cap = _; rw [this.1, h.1], by show (s.ch.step .mkW).nextW = _; rw [this.2, h.2]⟩
    have h2 : ∀ hits, ((s.ch.step .mkW).step (.awaitW s.ch.nextW true false hits)).cap = cap ∧
        ((s.ch.step .mkW).step (.awaitW s.ch.nextW true false hits)).nextW = n + 1 := fun hits => h1.chan (by simp)
    rw [if_pos rfl]
    unfold St.step
    dsimp only
    repeat' split
    all_goals first
      | exact h2 _
      | exact Size.tell (h2 _)
  | cancel w => exact h.chan (by simp)
  | run k => exact Size.tell (h.chan (by simp))

theorem Inv.ub {s : St} {k : Nat} {c : Prop} (h : Inv s k c) : CI s.ch ∧ s.gen.ub = false := by
  rcases h with h | ⟨swap, cs, h⟩ | ⟨swap, cs, m, h⟩
  · obtain ⟨res, hg, -⟩ := h.gen; exact ⟨h.ci, hg.ub⟩
  · exact ⟨h.ci, h.gen.ub⟩
  · obtain ⟨res, hg, -⟩ := h.gen; exact ⟨h.ci, hg.ub⟩

theorem CI.room {ch : Chan.St} (h : CI ch) (hn : ch.nextW ≤ ch.cap) : Chan.Room ch := by
  obtain ⟨es, he⟩ := h.ex
  have hu := h.ub
  rw [he] at hu ⊢
  exact Chan.exec_room _ _ hu (by rw [← he]; exact hn)

theorem calm_room {s : St} {k n cap : Nat} {c : Prop} (h : Inv s k c) (hs : Size cap n s) (es : List E)
    (hn : n + es.count .sub ≤ cap) : Calm s es ∧ (es.foldl St.step s).ch.asserted = false := by
  induction es generalizing s k n c with
  | nil =>
    simp only [List.count_nil, Nat.add_zero] at hn
    exact ⟨trivial, (h.ub.1.room (by rw [hs.1, hs.2]; exact hn)).ok⟩
  | cons e es ih =>
    have hw := (h.ub.1.room (by rw [hs.1, hs.2]; omega)).wq
    have := ih (h.step e) (hs.step h.ub.1.ub e) (by
      rw [List.count_cons] at hn
      by_cases he : e = .sub
      · simp [he] at hn ⊢; omega
      · simp [he] at hn ⊢; omega)
    refine ⟨⟨?_, this.1⟩, this.2⟩
    cases e <;> simp [Busy, hw]

end Cobalt.Disp
