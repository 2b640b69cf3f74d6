import Verif.VNet.Spec
import Verif.Same.Run
import Verif.Net.MeetProps
/-! Helper: a network of `channel<void>` is a network of `channel<T>` without the values. -/
namespace Cobalt.VNet
open Net (At)
open Chan (upd)
open Same (empty Good Fit Both ev rres wres seen seen1)

/-- The result without the value. -/
def down : Net.Res → VChan.Res
  | .val _ => .ok
  | .ok => .ok
  | .broken => .brokenPipe
  | .aborted => .aborted

def upA : Act → Net.Act
  | .read c => .read c
  | .write c => .write c 0
  | .stop => .stop

/-- The same coroutines with channels of values that carry nothing. -/
def up (N : Prog) : Net.Prog where
  act := fun p h => upA (N.act p (h.map down))
  rd := N.rd
  wr := N.wr

theorem up_proper {N : Prog} (h : N.proper) : (up N).proper := by
  refine ⟨fun p l c ha => ?_, fun p l c v ha => ?_, fun p l c ha => ?_⟩
  all_goals
    simp only [up] at ha
    cases hb : N.act p (l.map down) with
    | read c' => rw [hb] at ha; simp only [upA] at ha; cases ha <;> exact h.read _ _ _ hb
    | write c' => rw [hb] at ha; simp only [upA] at ha; cases ha <;> exact h.write _ _ _ hb
    | stop => rw [hb] at ha; simp only [upA] at ha; cases ha

theorem resR_eq (log : List Chan.Obs) (i : Nat) : resR (seen log) i = (Chan.resultOf log i).map rres := by
  unfold resR Chan.resultOf seen
  induction log with
  | nil => rfl
  | cons o log ih =>
    cases o with
    | doneR j r =>
      simp only [List.filterMap_cons, seen1, List.findSome?_cons]
      by_cases h : j = i
      · simp [h]
      · simp only [h, if_false]; exact ih
    | doneW j r => simp only [List.filterMap_cons, seen1, List.findSome?_cons]; exact ih
    | startR j => simp only [List.filterMap_cons, seen1, List.findSome?_cons]; exact ih
    | startW j => simp only [List.filterMap_cons, seen1, List.findSome?_cons]; exact ih

theorem resW_eq (log : List Chan.Obs) (i : Nat) : resW (seen log) i = (Pipe.resultOfW log i).map wres := by
  unfold resW Pipe.resultOfW seen
  induction log with
  | nil => rfl
  | cons o log ih =>
    cases o with
    | doneW j r =>
      simp only [List.filterMap_cons, seen1, List.findSome?_cons]
      by_cases h : j = i
      · simp [h]
      · simp only [h, if_false]; exact ih
    | doneR j r => simp only [List.filterMap_cons, seen1, List.findSome?_cons]; exact ih
    | startR j => simp only [List.filterMap_cons, seen1, List.findSome?_cons]; exact ih
    | startW j => simp only [List.filterMap_cons, seen1, List.findSome?_cons]; exact ih

theorem down_ofR (vals : List Nat) (r : Chan.RRes) : down (Net.ofR vals r) = rres r := by cases r <;> rfl
theorem down_ofW (r : Chan.WRes) : down (Net.ofW r) = wres r := by cases r <;> rfl

/-- The network without the values. -/
def img (s : Net.St) : St where
  ch := fun c => empty (s.ch c)
  pos := s.pos
  hist := fun p => (s.hist p).map down

theorem img_upd (f : Nat → Chan.St) (c : Nat) (x : Chan.St) :
    (fun j => empty (upd f c x j)) = upd (fun j => empty (f j)) c (empty x) := by
  funext j; unfold upd; split <;> rfl

theorem map_upd (f : Nat → List Net.Res) (c : Nat) (x : List Net.Res) :
    (fun j => (upd f c x j).map down) = upd (fun j => (f j).map down) c (x.map down) := by
  funext j; unfold upd; split <;> rfl

/-- All channels are as they should be. -/
def AllGood (s : Net.St) : Prop := ∀ c, Good (s.ch c)
def AllFit (s : Net.St) : Prop := ∀ c, Fit (s.ch c)

/-- The values are only left out, and the channels fit. -/
def Alike (s : Net.St) (v : St) : Prop := v = img s ∧ AllFit s

theorem good_upd {f : Nat → Chan.St} {c : Nat} {e : Chan.Ev} (h : ∀ c', Good (upd f c ((f c).step e) c')) (c' : Nat) :
    Good (f c') := by
  have := h c'
  unfold upd at this
  split at this
  · subst_vars; exact this.step
  · exact this

theorem fit_upd {f : Nat → Chan.St} {c : Nat} {x : Chan.St} (h : ∀ c', Fit (f c')) (hx : Fit x) (c' : Nat) :
    Fit (upd f c x c') := by
  unfold upd; split
  · exact hx
  · exact h c'

theorem settleR_good {N : Net.Prog} {s : Net.St} {c : Nat} (h : AllGood (s.settleR N c)) : AllGood s := by
  unfold Net.St.settleR at h
  split at h
  · split at h
    · exact good_upd h
    · exact h
  · exact h

theorem settleW_good {N : Net.Prog} {s : Net.St} {c : Nat} (h : AllGood (s.settleW N c)) : AllGood s := by
  unfold Net.St.settleW at h
  split at h
  · split at h
    · exact good_upd h
    · exact h
  · exact h

theorem on_good {N : Net.Prog} {s : Net.St} {c : Nat} {e : Chan.Ev} (h : AllGood (s.on N c e)) : AllGood s :=
  good_upd (settleR_good (settleW_good h))

theorem settleR_alike (N : Prog) {s : Net.St} (f : AllFit s) (c : Nat) (g : AllGood (s.settleR (up N) c)) :
    Alike (s.settleR (up N) c) ((img s).settleR N c) := by
  unfold Net.St.settleR at g ⊢
  unfold St.settleR
  have e1 : (img s).pos = s.pos := rfl
  have e2 : (up N).rd = N.rd := rfl
  rw [e1, e2]
  rw [e2] at g
  cases h1 : (s.pos (N.rd c)).rdOn c with
  | none => exact ⟨rfl, f⟩
  | some i =>
    rw [h1] at g
    dsimp only at g ⊢
    have e3 : resR ((img s).ch c).log i = (Chan.resultOf (s.ch c).log i).map rres := resR_eq _ _
    rw [e3]
    cases h2 : Chan.resultOf (s.ch c).log i with
    | none => exact ⟨rfl, f⟩
    | some r =>
      rw [h2] at g
      dsimp only [Option.map] at g ⊢
      have gc : Good ((s.ch c).step (.dropR i)) := by simpa [upd] using g c
      have hb := Same.step_both (f c) gc
      refine ⟨?_, fit_upd f hb.2⟩
      unfold img
      simp only [img_upd, map_upd, List.map_append, List.map_cons, List.map_nil, down_ofR, St.mk.injEq, and_true]
      rw [← hb.1]; rfl

theorem settleW_alike (N : Prog) {s : Net.St} (f : AllFit s) (c : Nat) (g : AllGood (s.settleW (up N) c)) :
    Alike (s.settleW (up N) c) ((img s).settleW N c) := by
  unfold Net.St.settleW at g ⊢
  unfold St.settleW
  have e1 : (img s).pos = s.pos := rfl
  have e2 : (up N).wr = N.wr := rfl
  rw [e1, e2]
  rw [e2] at g
  cases h1 : (s.pos (N.wr c)).wrOn c with
  | none => exact ⟨rfl, f⟩
  | some i =>
    rw [h1] at g
    dsimp only at g ⊢
    have e3 : resW ((img s).ch c).log i = (Pipe.resultOfW (s.ch c).log i).map wres := resW_eq _ _
    rw [e3]
    cases h2 : Pipe.resultOfW (s.ch c).log i with
    | none => exact ⟨rfl, f⟩
    | some r =>
      rw [h2] at g
      dsimp only [Option.map] at g ⊢
      have gc : Good ((s.ch c).step (.dropW i)) := by simpa [upd] using g c
      have hb := Same.step_both (f c) gc
      refine ⟨?_, fit_upd f hb.2⟩
      unfold img
      simp only [img_upd, map_upd, List.map_append, List.map_cons, List.map_nil, down_ofW, St.mk.injEq, and_true]
      rw [← hb.1]; rfl

theorem on_alike (N : Prog) {s : Net.St} (f : AllFit s) (c : Nat) (e : Chan.Ev) (g : AllGood (s.on (up N) c e)) :
    Alike (s.on (up N) c e) ((img s).on N c (ev e)) := by
  unfold Net.St.on at g ⊢
  unfold St.on
  have g1 := settleW_good g
  have g2 := settleR_good g1
  have gc : Good ((s.ch c).step e) := by simpa [upd] using g2 c
  have hb := Same.step_both (f c) gc
  have f1 : AllFit { s with ch := upd s.ch c ((s.ch c).step e) } := fit_upd f hb.2
  have e1 : ({ img s with ch := upd (img s).ch c (((img s).ch c).step (ev e)) } : St) =
      img { s with ch := upd s.ch c ((s.ch c).step e) } := by
    unfold img
    simp only [img_upd, St.mk.injEq, and_true]
    rw [← hb.1]
  have h1 := settleR_alike N f1 c g1
  have h2 := settleW_alike N h1.2 c g
  rw [← h1.1, ← e1] at h2
  exact h2

theorem step_alike (N : Prog) {s : Net.St} (f : AllFit s) (e : Net.Ev) (g : AllGood (s.step (up N) e)) :
    Alike (s.step (up N) e) ((img s).step N e) := by
  cases e with
  | run c k => exact on_alike N f c (.run k) g
  | go p conn =>
    unfold Net.St.step at g ⊢
    unfold St.step
    dsimp only at g ⊢
    have e1 : (img s).pos = s.pos := rfl
    have e2 : (up N).act p (s.hist p) = upA (N.act p ((img s).hist p)) := rfl
    rw [e1]
    rw [e2] at g ⊢
    by_cases h1 : s.pos p = .idle
    · rw [if_pos h1] at g ⊢
      rw [if_pos h1]
      generalize N.act p ((img s).hist p) = a at g ⊢
      cases a with
      | stop => exact ⟨rfl, f⟩
      | read c =>
        unfold upA Net.St.act at g ⊢
        unfold St.act
        dsimp only at g ⊢
        have g1 := on_good g
        have gc : Good ((s.ch c).step .mkR) := by simpa [upd] using g1 c
        have hb := Same.step_both (f c) gc
        have e3 : (img { s with ch := upd s.ch c ((s.ch c).step .mkR)
                                pos := upd s.pos p (.reading c (s.ch c).nextR) }) =
            ({ img s with ch := upd (img s).ch c (((img s).ch c).step .mkR)
                          pos := upd s.pos p (.reading c (s.ch c).nextR) } : St) := by
          unfold img
          simp only [img_upd, St.mk.injEq, and_true]
          rw [← hb.1]; rfl
        have f1 : AllFit { s with ch := upd s.ch c ((s.ch c).step .mkR)
                                  pos := upd s.pos p (.reading c (s.ch c).nextR) } := fit_upd f hb.2
        have h := on_alike N f1 c (.awaitR (s.ch c).nextR conn false []) g
        rw [e3] at h
        exact h
      | write c =>
        unfold upA Net.St.act at g ⊢
        unfold St.act
        dsimp only at g ⊢
        have g1 := on_good g
        have gc : Good ((s.ch c).step .mkW) := by simpa [upd] using g1 c
        have hb := Same.step_both (f c) gc
        have e3 : (img { s with ch := upd s.ch c ((s.ch c).step .mkW), vals := upd s.vals c (s.vals c ++ [0])
                                pos := upd s.pos p (.writing c (s.ch c).nextW) }) =
            ({ img s with ch := upd (img s).ch c (((img s).ch c).step .mkW)
                          pos := upd s.pos p (.writing c (s.ch c).nextW) } : St) := by
          unfold img
          simp only [img_upd, St.mk.injEq, and_true]
          rw [← hb.1]; rfl
        have f1 : AllFit { s with ch := upd s.ch c ((s.ch c).step .mkW), vals := upd s.vals c (s.vals c ++ [0])
                                  pos := upd s.pos p (.writing c (s.ch c).nextW) } := fit_upd f hb.2
        have h := on_alike N f1 c (.awaitW (s.ch c).nextW conn false []) g
        rw [e3] at h
        exact h
    · rw [if_neg h1, if_neg h1]; exact ⟨rfl, f⟩

/-! ## Nobody closes -/

theorem settleR_open {N : Net.Prog} {s : Net.St} (h : ∀ c, (s.ch c).closed = false) (c c' : Nat) :
    ((s.settleR N c).ch c').closed = false := by
  unfold Net.St.settleR
  split
  · split
    · dsimp only; unfold upd; split
      · rw [Same.closed_step (by simp)]; exact h c
      · exact h c'
    · exact h c'
  · exact h c'

theorem settleW_open {N : Net.Prog} {s : Net.St} (h : ∀ c, (s.ch c).closed = false) (c c' : Nat) :
    ((s.settleW N c).ch c').closed = false := by
  unfold Net.St.settleW
  split
  · split
    · dsimp only; unfold upd; split
      · rw [Same.closed_step (by simp)]; exact h c
      · exact h c'
    · exact h c'
  · exact h c'

theorem on_open {N : Net.Prog} {s : Net.St} (h : ∀ c, (s.ch c).closed = false) (c : Nat) {e : Chan.Ev} (he : e ≠ .close)
    (c' : Nat) : ((s.on N c e).ch c').closed = false := by
  unfold Net.St.on
  refine settleW_open (fun d => settleR_open (fun d => ?_) c d) c c'
  dsimp only; unfold upd; split
  · rw [Same.closed_step he]; exact h c
  · exact h d

theorem step_open {N : Prog} {s : Net.St} (h : ∀ c, (s.ch c).closed = false) (e : Net.Ev) (c' : Nat) :
    ((s.step (up N) e).ch c').closed = false := by
  cases e with
  | run c k => exact on_open h c (by simp) c'
  | go p conn =>
    unfold Net.St.step
    dsimp only
    split
    · show ((s.act (up N) p conn (upA (N.act p ((s.hist p).map down)))).ch c').closed = false
      cases N.act p ((s.hist p).map down) with
      | stop => exact h c'
      | read c =>
        refine on_open (fun d => ?_) c (by simp) c'
        dsimp only; unfold upd; split
        · rw [Same.closed_step (by simp)]; exact h c
        · exact h d
      | write c =>
        refine on_open (fun d => ?_) c (by simp) c'
        dsimp only; unfold upd; split
        · rw [Same.closed_step (by simp)]; exact h c
        · exact h d
    · exact h c'

theorem run_snoc (N : Net.Prog) (cap : Nat → Nat) (es : List Net.Ev) (e : Net.Ev) :
    Net.run N cap (es ++ [e]) = (Net.run N cap es).step N e := by simp [Net.run]

theorem vrun_snoc (N : Prog) (cap : Nat → Nat) (es : List Net.Ev) (e : Net.Ev) :
    run N cap (es ++ [e]) = (run N cap es).step N e := by simp [run]

theorem snoc_ind {α : Type} {P : List α → Prop} (h0 : P []) (h1 : ∀ l a, P l → P (l ++ [a])) (l : List α) : P l := by
  have : ∀ l : List α, P l.reverse := by
    intro l
    induction l with
    | nil => exact h0
    | cons a l ih => rw [List.reverse_cons]; exact h1 _ _ ih
  simpa using this l.reverse

theorem run_open (N : Prog) (cap : Nat → Nat) (es : List Net.Ev) : ∀ c, ((Net.run (up N) cap es).ch c).closed = false := by
  induction es using snoc_ind with
  | h0 => intro c; rfl
  | h1 es e ih => intro c; rw [run_snoc]; exact step_open ih e c

theorem run_good {N : Prog} (hN : N.proper) (cap : Nat → Nat) (es : List Net.Ev) : AllGood (Net.run (up N) cap es) :=
  fun c => ⟨(Net.C110_safe _ (up_proper hN) cap es c).1, (Net.C110_safe _ (up_proper hN) cap es c).2, run_open N cap es c⟩

theorem run_alike {N : Prog} (hN : N.proper) {cap : Nat → Nat} (hc : ∀ c, cap c < 2 ^ 64) (es : List Net.Ev) :
    Alike (Net.run (up N) cap es) (run N cap es) := by
  induction es using snoc_ind with
  | h0 => exact ⟨rfl, fun c => ⟨Nat.zero_le _, hc c⟩⟩
  | h1 es e ih =>
    have g := run_good hN cap (es ++ [e])
    rw [run_snoc] at g ⊢
    rw [vrun_snoc, ih.1]
    exact step_alike N ih.2 e g

end Cobalt.VNet
