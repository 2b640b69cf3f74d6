import Verif.Chan.PropsClose
import Mathlib.Data.List.Perm.Subperm
/-!
# C05: a channel with room for every write

If the limit of the channel is not less than the number of writes ever made, no write waits and nothing is lost, with any
number of producers and consumers, cancellations, interruptions and `close`.
-/
namespace Cobalt.Chan

/-- No write waits or is about to be resumed, no assertion has failed. -/
structure Room (s : St) : Prop where
  wq : s.wq = []
  ok : s.asserted = false
  no : ∀ i, (s.W i).status ≠ .susp

theorem Room.wakeWriter {s : St} (h : Room s) : s.wakeWriter = s := by
  unfold St.wakeWriter; rw [h.wq]

theorem Room.wakeReader {s : St} (h : Room s) : Room s.wakeReader := by
  unfold St.wakeReader
  dsimp only
  split
  · exact h
  · split
    · split
      · exact ⟨h.wq, by simp [h.ok, h.wq], h.no⟩
      · exact ⟨h.wq, by simp [h.ok, h.wq], h.no⟩
    · exact ⟨h.wq, by simp [h.ok, h.wq], h.no⟩

theorem Room.endR {s : St} (h : Room s) (i : Nat) (r : RRes) (b : List Nat) : Room { s.endR i r with buf := b } :=
  ⟨h.wq, h.ok, h.no⟩

theorem Room.endW {s : St} (h : Room s) (i : Nat) (r : WRes) (b : List Nat) (a : Bool) (ha : a = false) :
    Room { s.endW i r with buf := b, asserted := a } := by
  refine ⟨h.wq, ha, ?_⟩
  intro j
  simp only [St.endW, upd]
  split
  · simp
  · exact h.no j

theorem Room.resumeR {s : St} (h : Room s) (i : Nat) : Room (s.resumeR i) := by
  unfold St.resumeR
  have e := fun r => h.endR i r s.buf
  repeat' split
  · exact e _
  · exact e _
  · exact ⟨h.wq, h.ok, h.no⟩
  · rename_i d _ _
    have e' : Room (s.endR i (.value d)) := e _
    rw [Room.wakeWriter e']; exact e'
  · rw [Room.wakeWriter (h.endR i _ _)]; exact h.endR i _ _
  · rw [Room.wakeWriter (h.endR i _ _)]; exact h.endR i _ _

theorem Room.resumeW {s : St} (h : Room s) (i : Nat) (hb : s.buf.length ≠ s.cap ∨ (s.W i).cancelled = true ∨ (s.W i).closedF = true) :
    Room (s.resumeW i) := by
  unfold St.resumeW
  split
  · exact h.endW i _ s.buf s.asserted h.ok
  · split
    · exact h.endW i _ s.buf s.asserted h.ok
    · split
      · exact Room.wakeReader (h.endW i _ s.buf s.asserted h.ok)
      · refine Room.wakeReader (h.endW i _ _ _ ?_)
        simp_all [h.ok]

/-- A write that was not awaited yet finds a free place in the buffer. -/
theorem free_place {s : St} (h : WF s none) (t : TK s none) {i : Nat} (hf : (s.W i).status = .fresh) (hn : s.nextW ≤ s.cap) :
    s.buf.length ≠ s.cap := by
  have hlt : ∀ w, (s.W w).status ≠ .absent → w < s.nextW := by
    intro w hw
    apply Classical.byContradiction
    intro hge
    exact hw (by rw [h.wnew w (by omega)])
  have hi : i ∉ s.buf := by
    intro hi
    rcases t.srcB i hi with h1 | h1
    · rw [h.wfresh i hf] at h1; cases h1
    · rcases t.endW i _ h1 with h2 | h2 <;> rw [hf] at h2 <;> cases h2
  have hb : ∀ w, w ∈ s.buf → w < s.nextW := by
    intro w hw
    apply hlt
    intro ha
    have hst : Obs.startW w ∉ s.log := by
      rcases t.noStW w (Or.inr ha) with h1 | h1
      · exact h1
      · cases h1
    rcases t.srcB w hw with h1 | h1
    · exact hst (t.dirSt w h1)
    · exact hst (t.esW w _ h1)
  have hsub : (i :: s.buf) ⊆ List.range s.nextW := by
    intro w hw
    rw [List.mem_range]
    rcases List.mem_cons.1 hw with h1 | h1
    · subst h1; exact hlt w (by simp [hf])
    · exact hb w h1
  have := (List.Nodup.subperm (List.nodup_cons.2 ⟨hi, t.ndB⟩) hsub).length_le
  simp only [List.length_cons, List.length_range] at this
  omega

theorem Room.step {s : St} (h : WF s none) (t : TK s none) (r : Room s) (hn : s.nextW ≤ s.cap) (e : Ev) :
    Room (s.step e) := by
  have nw : ∀ i, (s.W i).waiting = false := by
    intro i
    rcases hw : (s.W i).waiting with _ | _
    · rfl
    · exact absurd (h.wwait i hw).1 (r.no i)
  have updW : ∀ (i : Nat) (x : WOp), x.status ≠ .susp → ∀ j, (upd s.W i x j).status ≠ .susp := by
    intro i x hx j
    simp only [upd]
    split
    · exact hx
    · exact r.no j
  unfold St.step
  split
  · exact r
  · cases e with
    | mkR => exact ⟨r.wq, r.ok, r.no⟩
    | mkW => exact ⟨r.wq, r.ok, updW _ _ (by simp)⟩
    | awaitR i conn txn hits =>
      dsimp only
      unfold St.awaitR
      have r' : Room { s with log := s.log ++ [Obs.startR i] } := ⟨r.wq, r.ok, r.no⟩
      dsimp only
      split
      · exact r
      · split
        · exact r'.resumeR i
        · split
          · exact r'.resumeR i
          · rw [r.wq]; exact ⟨rfl, r.ok, r.no⟩
    | awaitW i conn txn hits =>
      dsimp only
      unfold St.awaitW
      have r' : Room { s with log := s.log ++ [Obs.startW i] } := ⟨r.wq, r.ok, r.no⟩
      split
      · exact r
      · rename_i hf
        have hp := free_place h t (i := i) (by simpa using hf) hn
        rw [if_pos (by simp [St.writeReady, hp])]
        exact r'.resumeW i (Or.inl hp)
    | run k =>
      dsimp only
      unfold St.run
      split
      · exact r
      · exact Room.resumeR (s := { s with posted := s.posted.eraseIdx k }) ⟨r.wq, r.ok, r.no⟩ _
      · rename_i i hk
        exact absurd (h.wpost i (List.mem_of_getElem? hk)).1 (r.no i)
    | cancelR i =>
      dsimp only
      unfold St.cancelR
      split
      · exact ⟨r.wq, r.ok, r.no⟩
      · exact r
    | cancelW i =>
      dsimp only
      unfold St.cancelW
      split
      · rename_i hs
        exact absurd (h.wslot i hs).1 (r.no i)
      · exact r
    | intR i =>
      dsimp only
      unfold St.intR
      have r' : Room { s with R := upd s.R i { s.R i with cancelled := true } } := ⟨r.wq, r.ok, r.no⟩
      dsimp only
      repeat' split
      · exact r
      · exact r
      · exact r'.resumeR i
      · exact r'
    | intW i =>
      dsimp only
      unfold St.intW
      rw [nw i]
      dsimp only
      repeat' split
      · exact r
      · exact r
      · contradiction
      · exact ⟨r.wq, r.ok, updW _ _ (r.no i)⟩
    | dropR i =>
      dsimp only
      unfold St.dropR
      split
      · exact ⟨r.wq, r.ok, r.no⟩
      · exact r
    | dropW i =>
      dsimp only
      unfold St.dropW
      split
      · exact ⟨by simp [r.wq], r.ok, updW _ _ (by simp)⟩
      · exact r
    | close => exact ⟨rfl, r.ok, by simp [St.close, r.wq, r.no]⟩

theorem nextW_step (s : St) (e : Ev) : (s.step e).cap = s.cap ∧
    (s.step e).nextW = s.nextW + if e = .mkW ∧ s.ub = false then 1 else 0 := by
  have wr : ∀ s : St, s.wakeWriter.cap = s.cap ∧ s.wakeWriter.nextW = s.nextW := by
    intro s; unfold St.wakeWriter; dsimp only; repeat' split
    all_goals exact ⟨rfl, rfl⟩
  have ww : ∀ s : St, s.wakeReader.cap = s.cap ∧ s.wakeReader.nextW = s.nextW := by
    intro s; unfold St.wakeReader; dsimp only; repeat' split
    all_goals exact ⟨rfl, rfl⟩
  have rr : ∀ (s : St) i, (s.resumeR i).cap = s.cap ∧ (s.resumeR i).nextW = s.nextW := by
    intro s i; unfold St.resumeR; repeat' split
    all_goals first
      | exact ⟨rfl, rfl⟩
      | exact wr _
  have rw' : ∀ (s : St) i, (s.resumeW i).cap = s.cap ∧ (s.resumeW i).nextW = s.nextW := by
    intro s i; unfold St.resumeW; repeat' split
    all_goals first
      | exact ⟨rfl, rfl⟩
      | exact ww _
  have ir : ∀ (s : St) i, (s.intR i).cap = s.cap ∧ (s.intR i).nextW = s.nextW := by
    intro s i; unfold St.intR; dsimp only; repeat' split
    all_goals first
      | exact ⟨rfl, rfl⟩
      | exact rr _ _
  have iw : ∀ (s : St) i, (s.intW i).cap = s.cap ∧ (s.intW i).nextW = s.nextW := by
    intro s i; unfold St.intW; dsimp only; repeat' split
    all_goals first
      | exact ⟨rfl, rfl⟩
      | exact rw' _ _
  have it : ∀ (ts : List Tok) (s : St), (ts.foldl St.int s).cap = s.cap ∧ (ts.foldl St.int s).nextW = s.nextW := by
    intro ts
    induction ts with
    | nil => intro s; exact ⟨rfl, rfl⟩
    | cons x ts ih =>
      intro s
      have h1 := ih (s.int x)
      have h2 : (s.int x).cap = s.cap ∧ (s.int x).nextW = s.nextW := by
        cases x
        · exact ir s _
        · exact iw s _
      exact ⟨by rw [List.foldl, h1.1, h2.1], by rw [List.foldl, h1.2, h2.2]⟩
  unfold St.step
  split
  · rename_i hu; simp [hu]
  · rename_i hu
    cases e with
    | mkR => simp
    | mkW => simp [hu]
    | awaitR i conn txn hits =>
      simp only [reduceCtorEq, false_and, if_false, Nat.add_zero]
      unfold St.awaitR
      dsimp only
      split
      · exact ⟨rfl, rfl⟩
      · split
        · exact rr _ _
        · split
          · exact rr _ _
          · split
            · exact ⟨rfl, rfl⟩
            · split
              · refine ⟨(rw' _ _).1.trans ?_, (rw' _ _).2.trans ?_⟩ <;> simp only [St.handR] <;> split
                · exact (it _ _).1
                · rfl
                · exact (it _ _).2
                · rfl
              · exact ⟨rfl, rfl⟩
    | awaitW i conn txn hits =>
      simp only [reduceCtorEq, false_and, if_false, Nat.add_zero]
      unfold St.awaitW
      dsimp only
      split
      · exact ⟨rfl, rfl⟩
      · split
        · exact rw' _ _
        · split
          · exact rw' _ _
          · split
            · exact ⟨rfl, rfl⟩
            · split
              · refine ⟨(rr _ _).1.trans ?_, (rr _ _).2.trans ?_⟩ <;> simp only [St.handW] <;> split
                · exact (it _ _).1
                · rfl
                · exact (it _ _).2
                · rfl
              · exact ⟨rfl, rfl⟩
    | run k =>
      simp only [reduceCtorEq, false_and, if_false, Nat.add_zero]
      unfold St.run
      split
      · exact ⟨rfl, rfl⟩
      · exact rr _ _
      · exact rw' _ _
    | intR i => simpa using ir s i
    | intW i => simpa using iw s i
    | cancelR i => simp only [reduceCtorEq, false_and, if_false, Nat.add_zero]; unfold St.cancelR; split <;> exact ⟨rfl, rfl⟩
    | cancelW i => simp only [reduceCtorEq, false_and, if_false, Nat.add_zero]; unfold St.cancelW; split <;> exact ⟨rfl, rfl⟩
    | dropR i => simp only [reduceCtorEq, false_and, if_false, Nat.add_zero]; unfold St.dropR; split <;> exact ⟨rfl, rfl⟩
    | dropW i => simp only [reduceCtorEq, false_and, if_false, Nat.add_zero]; unfold St.dropW; split <;> exact ⟨rfl, rfl⟩
    | close => simp [St.close]

theorem exec_room (cap : Nat) (es : List Ev) (hu : (exec cap es).ub = false) (hn : (exec cap es).nextW ≤ cap) :
    Room (exec cap es) := by
  have : (exec cap es).cap = cap ∧ ((exec cap es).ub = true ∨ (WF (exec cap es) none ∧ TK (exec cap es) none ∧
      ((exec cap es).nextW ≤ cap → Room (exec cap es)))) := by
    apply exec_induction cap (P := fun s => s.cap = cap ∧ (s.ub = true ∨ (WF s none ∧ TK s none ∧ (s.nextW ≤ cap → Room s))))
    · exact ⟨rfl, Or.inr ⟨WF.init cap, TK.init cap, fun _ => ⟨rfl, rfl, by simp [St.init]⟩⟩⟩
    · intro s e ⟨hc, h⟩
      obtain ⟨n1, n2⟩ := nextW_step s e
      refine ⟨by rw [n1, hc], ?_⟩
      rcases h with h | ⟨h, t, r⟩
      · left; simp [St.step, h]
      · rcases h.step e with h1 | h1
        · exact Or.inl h1
        · rcases t.step h e with h2 | h2
          · exact Or.inl h2
          · refine Or.inr ⟨h1, h2, fun hle => ?_⟩
            exact Room.step h t (r (by omega)) (by omega) e
  rcases this.2 with h | ⟨-, -, h⟩
  · rw [hu] at h; cases h
  · exact h hn

theorem nextW_exec (cap : Nat) (es : List Ev) (hu : (exec cap es).ub = false) : (exec cap es).nextW = es.count .mkW := by
  have key : ∀ (es : List Ev) (s : St), (s.steps es).ub = false → (s.steps es).nextW = s.nextW + es.count .mkW := by
    intro es
    induction es with
    | nil => intro s _; rfl
    | cons e es ih =>
      intro s hs
      have h1 := ih (s.step e) hs
      have hsu : s.ub = false := by
        rcases hx : s.ub with _ | _
        · rfl
        · have : ∀ (fs : List Ev) (t : St), t.ub = true → (t.steps fs).ub = true := by
            intro fs
            induction fs with
            | nil => intro t ht; exact ht
            | cons f fs ih' => intro t ht; exact ih' (t.step f) (by simp [St.step, ht])
          rw [this _ _ hx] at hs; cases hs
      show ((s.step e).steps es).nextW = _
      rw [h1, (nextW_step s e).2]
      by_cases he : e = .mkW
      · subst he; simp [hsu]; omega
      · simp [he]
  have := key es (St.init cap) hu
  rw [show (exec cap es).nextW = ((St.init cap).steps es).nextW from rfl, this]
  simp [St.init]

/-- **C05**, no write waits and nothing is lost if the limit of the channel is not less than the number of writes. -/
theorem C05_room (cap : Nat) (es : List Ev) (hu : (exec cap es).ub = false) (hn : es.count .mkW ≤ cap) :
    (exec cap es).asserted = false ∧ (∀ w, ((exec cap es).W w).status ≠ .susp) ∧
    ∀ w, Obs.doneW w .ok ∈ (exec cap es).log →
      w ∈ (exec cap es).buf ∨ w ∈ delivered (exec cap es).log ∨ (exec cap es).inHand w := by
  have r := exec_room cap es hu (by rw [nextW_exec cap es hu]; exact hn)
  exact ⟨r.ok, r.no, fun w hw => (reach hu).2.keep r.ok w (Or.inr hw)⟩

/-- Two writes and a limit of 2; a third one waits. -/
example : let es := [.mkW, .awaitW 0 true false [], .mkW, .awaitW 1 true false []]
    (exec 2 es).ub = false ∧ es.count .mkW ≤ 2 ∧ (exec 2 es).buf = [0, 1] ∧
      ((exec 2 (es ++ [.mkW, .awaitW 2 true false []])).W 2).status = .susp := by decide

end Cobalt.Chan
