import Verif.Pipe.Link
import Verif.Pipe.Spec
/-! Helper: what the invariant says about values. -/
namespace Cobalt.Chan

theorem cap_resumeR (s : St) (i : Nat) : (s.resumeR i).cap = s.cap := by
  have wW : ∀ t : St, t.wakeWriter.cap = t.cap := by
    intro t; unfold St.wakeWriter; split
    · rfl
    · dsimp only; split
      · split <;> rfl
      · rfl
  unfold St.resumeR; split
  · rfl
  · split
    · rfl
    · split
      · rfl
      all_goals (rw [wW]; rfl)

theorem cap_resumeW (s : St) (i : Nat) : (s.resumeW i).cap = s.cap := by
  have wR : ∀ t : St, t.wakeReader.cap = t.cap := by
    intro t; unfold St.wakeReader; split
    · rfl
    · dsimp only; split
      · split <;> rfl
      · rfl
  unfold St.resumeW; split
  · rfl
  · split
    · rfl
    · split <;> rw [wR] <;> rfl

theorem cap_int (s : St) (t : Tok) : (s.int t).cap = s.cap := by
  cases t
  · simp only [St.int, intR_eq]; split
    · rfl
    · split <;> rfl
  · simp only [St.int, intW_eq]; split
    · rfl
    · split <;> rfl

theorem cap_hits (ts : List Tok) (s : St) : (ts.foldl St.int s).cap = s.cap := by
  induction ts generalizing s with
  | nil => rfl
  | cons t ts ih => rw [List.foldl_cons, ih, cap_int]

theorem cap_step (s : St) (e : Ev) : (s.step e).cap = s.cap := by
  unfold St.step
  split
  · rfl
  · cases e with
    | mkR => rfl
    | mkW => rfl
    | awaitR i c t l =>
      dsimp only; rw [awaitR_eq]; split
      · rfl
      · dsimp only; split
        · rw [cap_resumeR]
        · split
          · rfl
          · split
            · rw [cap_resumeW, cap_hits]; rfl
            · rfl
    | awaitW i c t l =>
      dsimp only; rw [awaitW_eq]; split
      · rfl
      · dsimp only; split
        · rw [cap_resumeW]
        · split
          · rfl
          · split
            · rw [cap_resumeR, cap_hits]; rfl
            · rfl
    | run k =>
      dsimp only; unfold St.run; split
      · rfl
      · rw [cap_resumeR]
      · rw [cap_resumeW]
    | cancelR i => dsimp only; unfold St.cancelR; split <;> rfl
    | cancelW i => dsimp only; unfold St.cancelW; split <;> rfl
    | intR i => exact cap_int s (.r i)
    | intW i => exact cap_int s (.w i)
    | dropR i => dsimp only; unfold St.dropR; split <;> rfl
    | dropW i => dsimp only; unfold St.dropW; split <;> rfl
    | close => rfl

end Cobalt.Chan

namespace Cobalt.Pipe
open Chan (delivered upd)

theorem firstValues_eq (m : Nat) : firstValues m = List.range m := by
  induction m with
  | zero => rfl
  | succ m ih => rw [firstValues, ih, List.range_succ]

theorem cap_upd (f : Nat → Chan.St) (k : Nat) (c : Chan.St) (h : c.cap = (f k).cap) (x : Nat) :
    (upd f k c x).cap = (f x).cap := by
  rw [Chan.upd_apply]; split
  · subst_vars; exact h
  · rfl

theorem settleR_cap (n : Nat) (s : St) (k x : Nat) : ((s.settleR n k).ch x).cap = (s.ch x).cap := by
  unfold St.settleR
  split
  · split
    · exact cap_upd _ _ _ (Chan.cap_step _ _) x
    · exact cap_upd _ _ _ (Chan.cap_step _ _) x
    · rfl
  · rfl

theorem settleW_cap (s : St) (k x : Nat) : ((s.settleW k).ch x).cap = (s.ch x).cap := by
  unfold St.settleW
  split
  · split
    · exact cap_upd _ _ _ (Chan.cap_step _ _) x
    · exact cap_upd _ _ _ (Chan.cap_step _ _) x
    · rfl
  · rfl

theorem on_cap (n : Nat) (s : St) (k x : Nat) (e : Chan.Ev) : ((s.on n k e).ch x).cap = (s.ch x).cap := by
  unfold St.on
  rw [settleW_cap, settleR_cap]
  exact cap_upd _ _ _ (Chan.cap_step _ _) x

theorem step_cap (n : Nat) (s : St) (e : Ev) (x : Nat) : ((s.step n e).ch x).cap = (s.ch x).cap := by
  cases e with
  | go k conn =>
    simp only [St.step]
    split
    · unfold St.go
      split
      · split
        · rfl
        · dsimp only; rw [on_cap]; exact cap_upd _ _ _ (Chan.cap_step _ _) x
      · dsimp only; rw [on_cap]; exact cap_upd _ _ _ (Chan.cap_step _ _) x
      · rfl
    · rfl
  | chan k e =>
    simp only [St.step]
    split
    · exact on_cap ..
    · rfl

theorem run_cap (n : Nat) (cap : Nat → Nat) (es : List Ev) (x : Nat) : ((run n cap es).ch x).cap = cap x := by
  have : ∀ (es : List Ev) (s : St), ((es.foldl (St.step n) s).ch x).cap = (s.ch x).cap := by
    intro es
    induction es with
    | nil => intro s; rfl
    | cons e es ih => intro s; rw [List.foldl_cons, ih, step_cap]
  exact this es _

theorem filter_range_last (p : Nat → Bool) (m : Nat) (h : ∀ j, j < m → p j = true ∨ j + 1 = m) :
    (List.range m).filter p = List.range m ∨ ((List.range m).filter p = List.range (m - 1) ∧ 0 < m) := by
  cases m with
  | zero => left; rfl
  | succ m =>
    have h1 : (List.range m).filter p = List.range m := by
      rw [List.filter_eq_self]
      intro a ha
      rw [List.mem_range] at ha
      exact (h a (by omega)).resolve_right (by omega)
    rw [List.range_succ, List.filter_append, h1]
    cases hp : p m with
    | true => left; simp [hp]
    | false => right; simp [hp]

/-- The values taken over are the first ones written: all, or all but the last. -/
theorem Loose.taken {c : Chan.St} {vals : List Nat} {p q : At} {gp gq : List Nat} (l : Loose c vals p q gp gq) :
    c.taken = List.range c.nextW ∨ (c.taken = List.range (c.nextW - 1) ∧ 0 < c.nextW) := by
  unfold Chan.St.taken
  rw [l.ci.sw]
  refine filter_range_last _ _ fun j hj => ?_
  rcases l.okW j hj with h | h
  · left; simp [h]
  · exact .inr h

/-- If no write is under way all values have been taken over. -/
theorem Loose.taken_all {c : Chan.St} {vals : List Nat} {p q : At} {gp gq : List Nat} (l : Loose c vals p q gp gq)
    (hp : p ≠ .ended) (hw : wr p = none) : c.taken = List.range c.nextW := by
  unfold Chan.St.taken
  rw [l.ci.sw, List.filter_eq_self]
  intro a ha
  rw [List.mem_range] at ha
  have := (l.live hp a ha).resolve_right (by rw [hw]; simp)
  simp [this]

theorem map_range_getD (vals : List Nat) (d : Nat) (h : d ≤ vals.length) :
    (List.range d).map (fun w => vals.getD w 0) = vals.take d := by
  apply List.ext_getElem?
  intro i
  rw [List.getElem?_map, List.getElem?_take]
  rcases Nat.lt_or_ge i d with h1 | h1
  · rw [List.getElem?_range h1, if_pos h1]
    have : i < vals.length := by omega
    simp [List.getD_eq_getElem?_getD, this]
  · rw [if_neg (by omega), List.getElem?_eq_none (by simpa using h1)]; rfl

theorem prefix_range {l : List Nat} {m : Nat} (h : l <+: List.range m) : l = List.range l.length ∧ l.length ≤ m := by
  have h1 := h.length_le
  rw [List.length_range] at h1
  have h2 := List.prefix_iff_eq_take.1 h
  rw [List.take_range, Nat.min_eq_left h1] at h2
  exact ⟨h2, h1⟩

/-- What has been delivered are the first values written. -/
theorem Link.delivered {c : Chan.St} {vals : List Nat} {p q : At} {gp gq : List Nat} (l : Link c vals p q gp gq) :
    gq = vals.take gq.length ∧ gq.length = (delivered c.log).length ∧ gq.length ≤ vals.length := by
  have hgot := l.got'
  obtain ⟨hand, -, -, h3⟩ := l.ci.j.split
  have hpre : Chan.delivered c.log <+: List.range c.nextW := by
    have h4 : Chan.delivered c.log <+: c.taken := ⟨c.buf ++ hand, by rw [← h3, List.append_assoc]⟩
    rcases l.taken with h | h
    · rw [h] at h4; exact h4
    · rw [h.1] at h4
      refine h4.trans ⟨[c.nextW - 1], ?_⟩
      rw [← List.range_succ]; congr 1; omega
  obtain ⟨e1, e2⟩ := prefix_range hpre
  have hlen : gq.length = (Chan.delivered c.log).length := by rw [hgot]; simp
  refine ⟨?_, hlen, by rw [hlen, l.len]; exact e2⟩
  rw [hlen, hgot, e1, map_range_getD _ _ (by rw [l.len]; exact e2), List.length_range]

/-- Who reads is suspended, and in the queue if nothing is posted. -/
theorem waitingR {n : Nat} {s : St} (h : PI n s) {k i : Nat} (hk : k < n) (hp : (s.ch k).posted = [])
    (hi : s.pos (k + 1) = .reading i) : i ∈ (s.ch k).rq := by
  have l := h.link k hk
  have hlt := l.ci.curR i (by rw [hi]; rfl)
  rcases l.ci.allR i hlt with ⟨-, h1 | h1⟩ | h1
  · rcases l.ci.h.rsusp i h1 with h2 | h2 | h2
    · exact (l.ci.h.rwait i h2).2
    · rw [hp] at h2; simp at h2
    · cases h2
  · exact absurd h1.2 (l.st.r i (by rw [hi]; rfl))
  · exact absurd (by rw [hi]; rfl) h1.1

theorem waitingW {n : Nat} {s : St} (h : PI n s) {k j : Nat} (hk : k < n) (hp : (s.ch k).posted = [])
    (hj : s.pos k = .writing j) : j ∈ (s.ch k).wq := by
  have l := h.link k hk
  have hlt := l.ci.curW j (by rw [hj]; rfl)
  rcases l.ci.allW j hlt with ⟨-, h1 | h1⟩ | h1
  · rcases l.ci.h.wsusp j h1 with h2 | h2 | h2
    · exact (l.ci.h.wwait j h2).2
    · rw [hp] at h2; simp at h2
    · cases h2
  · exact absurd h1.2 (l.st.w j (by rw [hj]; rfl))
  · exact absurd (by rw [hj]; rfl) h1.1

end Cobalt.Pipe
