import Verif.Net.Run
/-! Helper: what the invariant of a network says. -/
namespace Cobalt.Net
open Chan (CI Set' Plain CK delivered endedR endedW startsW resultOf newOf upd)

/-! ## One channel -/

theorem Li.inRq {c : Chan.St} {n : Nat} {vals : List Nat} {G : List Res} {w : Option Nat} {i : Nat}
    (l : Li c n vals G (some i) w) (hp : c.posted = []) : i ∈ c.rq := by
  rcases l.ci.allR i (l.ci.curR i rfl) with ⟨-, h1 | h1⟩ | h1
  · rcases l.ci.h.rsusp i h1 with h2 | h2 | h2
    · exact (l.ci.h.rwait i h2).2
    · rw [hp] at h2; simp at h2
    · cases h2
  · exact absurd h1.2 (l.st.r i rfl)
  · exact absurd rfl h1.1

theorem Li.inWq {c : Chan.St} {n : Nat} {vals : List Nat} {G : List Res} {r : Option Nat} {j : Nat}
    (l : Li c n vals G r (some j)) (hp : c.posted = []) : j ∈ c.wq := by
  rcases l.ci.allW j (l.ci.curW j rfl) with ⟨-, h1 | h1⟩ | h1
  · rcases l.ci.h.wsusp j h1 with h2 | h2 | h2
    · exact (l.ci.h.wwait j h2).2
    · rw [hp] at h2; simp at h2
    · cases h2
  · exact absurd h1.2 (l.st.w j rfl)
  · exact absurd rfl h1.1

theorem Lo.open_got {c : Chan.St} {n : Nat} {vals : List Nat} {G : List Res} {r w : Option Nat}
    (l : Li c n vals G r w) (hc : c.closed = false) : G.length = (Chan.delivered c.log).length := by
  obtain ⟨e, he, hel⟩ := l.got
  rw [l.no_newly, List.append_nil] at he
  have : e = 0 := Classical.byContradiction fun h => by have := (hel h).1; rw [hc] at this; cases this
  subst this
  rw [he]; simp [vmap]

theorem CI.actR_only {c : Chan.St} {r w : Option Nat} (ci : CI c r w) {x : Nat} (hx : c.actR none x) : r = some x := by
  rcases hx with hx | hx
  · have hxl : x < c.nextR := by
      rcases Nat.lt_or_ge x c.nextR with h4 | h4
      · exact h4
      · rw [ci.h.rnew x h4] at hx; cases hx
    rcases ci.allR x hxl with h4 | h4
    · exact h4.1
    · rw [hx] at h4; cases h4.2.1
  · cases hx

/-- Who waits for a value has had all there were. -/
theorem Li.waitsR {c : Chan.St} {n : Nat} {vals : List Nat} {G : List Res} {w : Option Nat} {i : Nat}
    (l : Li c n vals G (some i) w) (hp : c.posted = []) : c.closed = false ∧ G.length = n := by
  have hq := l.inRq hp
  have hne : c.rq ≠ [] := fun h => by rw [h] at hq; cases hq
  have hc : c.closed = false := by
    cases h : c.closed with
    | false => rfl
    | true => exact absurd (l.ci.h.closedQ h).1 hne
  have hwq : c.wq = [] := l.ci.h.excl.resolve_left hne
  have hw : w = none := by
    cases hw : w with
    | none => rfl
    | some j =>
      subst hw
      have := l.inWq hp
      rw [hwq] at this; cases this
  have hb := l.ci.j.rqb hne
  have ht : c.taken = List.range n := by
    rcases l.taken_cases with h | h
    · exact h
    · rw [hw] at h; cases h.2.2.1
  have hf := l.ci.j.fifo0 (fun x hx => by
    have := CI.actR_only l.ci hx
    cases this
    exact (l.ci.h.rlink _ hq).1)
  rw [hb, List.append_nil, ht] at hf
  refine ⟨hc, ?_⟩
  rw [Lo.open_got l hc, hf, List.length_range]

/-- Who waits for room finds none. -/
theorem Li.waitsW {c : Chan.St} {n : Nat} {vals : List Nat} {G : List Res} {r : Option Nat} {j : Nat}
    (l : Li c n vals G r (some j)) (hp : c.posted = []) : c.closed = false ∧ j = c.nextR + c.cap := by
  have hq := l.inWq hp
  have hne : c.wq ≠ [] := fun h => by rw [h] at hq; cases hq
  have hc : c.closed = false := by
    cases h : c.closed with
    | false => rfl
    | true => exact absurd (l.ci.h.closedQ h).2 hne
  have hrq : c.rq = [] := l.ci.h.excl.resolve_right hne
  have hr : r = none := by
    cases hr : r with
    | none => rfl
    | some i =>
      subst hr
      have := l.inRq hp
      rw [hrq] at this; cases this
  have hb := l.ci.j.wqb hne
  have hn : n = j + 1 := by rw [l.op hc, l.last j rfl]
  have ht : c.taken = List.range j := by
    rcases l.taken_cases with h | h
    · exfalso
      have hj : j ∈ c.taken := by rw [h, List.mem_range]; omega
      have h2 := (List.mem_filter.1 hj).2
      have h3 : Chan.Obs.doneW j .ok ∉ c.log := fun h => l.st.w j rfl ((Chan.mem_endedW _ _).2 ⟨_, h⟩)
      have h4 := (l.ci.h.wlink j hq).1
      simp [h3, h4] at h2
    · rw [h.1, hn]; rfl
  have hf := l.ci.j.fifo0 (fun x hx => by
    have := CI.actR_only l.ci hx
    rw [hr] at this; cases this)
  have hlen := congrArg List.length hf
  rw [ht, List.length_append, List.length_range, hb, ← Lo.open_got l hc] at hlen
  have hcnt := l.cnt
  rw [hr] at hcnt
  simp at hcnt
  exact ⟨hc, by omega⟩

/-- A write that succeeded had a read or room for it. -/
theorem Lo.room {c : Chan.St} {n : Nat} {vals : List Nat} {G : List Res} {r w : Option Nat}
    (l : Li c n vals G r w) {j : Nat} (hj : Chan.Obs.doneW j .ok ∈ c.log) : j < c.nextR + c.cap := by
  have hjn : j < c.nextW := l.ci.endLtW ((Chan.mem_endedW _ _).2 ⟨_, hj⟩)
  have hmem : j ∈ c.taken := by
    unfold Chan.St.taken
    rw [List.mem_filter, l.ci.sw, List.mem_range]
    exact ⟨hjn, by simp [hj]⟩
  have hlt : j < c.taken.length := by
    rcases l.taken_cases with h | h
    · rw [h] at hmem ⊢; simpa using hmem
    · rw [h.1] at hmem ⊢; simpa using hmem
  obtain ⟨hand, h1, h2, h3⟩ := l.ci.j.split
  have hlen := congrArg List.length h3
  simp only [List.length_append] at hlen
  have hb := l.ci.h.len
  obtain ⟨e, he, -⟩ := l.got
  rw [l.no_newly, List.append_nil] at he
  have hd : (Chan.delivered c.log).length ≤ G.length := by rw [he]; simp [vmap]
  have hcnt := l.cnt
  cases hh : hand with
  | nil => rw [hh] at hlen; simp at hlen; omega
  | cons x xs =>
    obtain ⟨i, hi1, hi2⟩ := (h2 x).1 (by rw [hh]; simp)
    have hr := CI.actR_only l.ci (x := i) (.inl hi1)
    rw [hr] at hcnt
    have hcap := l.ci.j.dirR i (by rw [hi2]; simp)
    simp at hcnt
    omega

/-! ## Histories -/

theorem prefix_ind {α : Type} {a b : List α} (h : a <+: b) {P : List α → Prop} (h0 : P a)
    (h1 : ∀ l x, a <+: l → P l → P (l ++ [x])) : P b := by
  obtain ⟨t, rfl⟩ := h
  induction t using snoc_ind with
  | h0 => simpa using h0
  | h1 t x ih => rw [← List.append_assoc]; exact h1 _ _ (List.prefix_append _ _) ih

theorem done_mono (f : List Res → Act) {a b : List Res} (h : a <+: b) : done f a <+: done f b :=
  prefix_ind h (P := fun b => done f a <+: done f b) (List.prefix_refl _)
    (fun l x _ ih => by rw [done_snoc]; exact ih.trans (List.prefix_append _ _))

theorem received_mono (f : List Res → Act) (c : Nat) {a b : List Res} (h : a <+: b) :
    received f c a <+: received f c b :=
  prefix_ind h (P := fun b => received f c a <+: received f c b) (List.prefix_refl _)
    (fun l x _ ih => by rw [received_snoc]; exact ih.trans (List.prefix_append _ _))

theorem sent_mono (c : Nat) {a b : List Act} (h : a <+: b) : sent c a <+: sent c b :=
  prefix_ind h (P := fun b => sent c a <+: sent c b) (List.prefix_refl _)
    (fun l x _ ih => by rw [sent_snoc]; exact ih.trans (List.prefix_append _ _))

theorem wrote_mono (c : Nat) {a b : List Act} (h : a <+: b) : wrote c a <+: wrote c b :=
  prefix_ind h (P := fun b => wrote c a <+: wrote c b) (List.prefix_refl _)
    (fun l x _ ih => by rw [wrote_snoc]; exact ih.trans (List.prefix_append _ _))

theorem nreads_mono (c : Nat) {a b : List Act} (h : a <+: b) : nreads c a ≤ nreads c b :=
  prefix_ind h (P := fun b => nreads c a ≤ nreads c b) (Nat.le_refl _)
    (fun l x _ ih => by rw [nreads_snoc]; omega)

/-- After a channel is closed nothing more is sent. -/
theorem sent_closed (c : Nat) {a b : List Act} (h : a <+: b) (hc : Act.close c ∈ a) : sent c b = sent c a :=
  prefix_ind h (P := fun b => sent c b = sent c a) rfl
    (fun l x hl ih => by
      rw [sent_snoc, ih]
      have : Act.close c ∈ l := hl.subset hc
      cases x <;> simp [this])

/-- What a coroutine does or would do next included. -/
def offered (N : Prog) (s : St) (p : Nat) : List Act := done (N.act p) (s.hist p) ++ [N.act p (s.hist p)]

theorem started_offered (N : Prog) (s : St) (p : Nat) : started N s p <+: offered N s p := by
  unfold started offered begun
  split
  · exact List.prefix_append _ _
  · exact List.prefix_refl _

theorem done_started (N : Prog) (s : St) (p : Nat) : done (N.act p) (s.hist p) <+: started N s p := by
  unfold started begun
  split
  · exact List.prefix_refl _
  · exact List.prefix_append _ _

theorem offered_eq (N : Prog) (s : St) (p : Nat) (x : Res) : offered N s p = done (N.act p) (s.hist p ++ [x]) := by
  rw [done_snoc]; rfl

theorem offered_mono {N : Prog} {s t : St} {p : Nat} (h : s.hist p <+: t.hist p) : offered N s p <+: offered N t p := by
  obtain ⟨l, hl⟩ := h
  cases l with
  | nil =>
    rw [List.append_nil] at hl
    unfold offered; rw [hl]; exact List.prefix_refl _
  | cons x xs =>
    rw [offered_eq N s p x]
    refine List.IsPrefix.trans ?_ (List.prefix_append _ _)
    refine done_mono _ ⟨xs, ?_⟩
    rw [← hl]; simp

/-! ## The network -/

theorem NI.nextR {N : Prog} {s : St} (i : NI N s) (c : Nat) :
    (s.ch c).nextR = nreads c (started N s (N.rd c)) := by
  have h := (i.link c).cnt
  rw [received_length] at h
  rw [← h]
  unfold started
  cases hp : s.pos (N.rd c) with
  | idle => rw [begun_idle]; rfl
  | reading c' k =>
    have ha := i.atR _ _ _ hp
    rw [begun_busy _ _ (by simp), nreads_snoc, ha]
    by_cases hc : c' = c <;> simp [At.rdOn, hc]
  | writing c' k =>
    obtain ⟨v, ha⟩ := i.atW _ _ _ hp
    rw [begun_busy _ _ (by simp), nreads_snoc, ha]
    simp [At.rdOn]

/-- What came of a read. -/
theorem NI.readRes {N : Prog} (hN : N.proper) {s : St} (i : NI N s) {p c : Nat} {l : List Res} {x : Res}
    (hl : l ++ [x] <+: s.hist p) (ha : N.act p l = .read c) :
    (∃ v, x = .val v ∧ (sent c (started N s (N.wr c)))[nreads c (done (N.act p) l)]? = some v) ∨
    (x = .broken ∧ Act.close c ∈ started N s (N.wr c) ∧
      (sent c (started N s (N.wr c))).length ≤ nreads c (done (N.act p) l)) := by
  have hrd := hN.read _ _ _ ha
  have hk : (received (N.act p) c (s.hist p))[nreads c (done (N.act p) l)]? = some x := by
    have h1 := received_mono (N.act p) c hl
    rw [received_snoc, ha, if_pos rfl] at h1
    obtain ⟨t, ht⟩ := h1
    rw [← ht, ← received_length, List.append_assoc, List.getElem?_append_right (Nat.le_refl _)]
    simp
  have li := i.link c
  unfold LiAt at li
  obtain ⟨e, he, hel⟩ := li.got
  rw [li.no_newly, List.append_nil, hrd] at he
  rw [he] at hk
  generalize nreads c (done (N.act p) l) = k at *
  have hd := li.delivered
  have hlv : (vmap (s.vals c) (Chan.delivered (s.ch c).log)).length = (Chan.delivered (s.ch c).log).length := by simp [vmap]
  rcases Nat.lt_or_ge k (Chan.delivered (s.ch c).log).length with h | h
  · left
    rw [List.getElem?_append_left (by omega)] at hk
    unfold vmap at hk
    rw [hd.1, List.getElem?_map, List.getElem?_range h] at hk
    simp only [Option.map_some, Option.some.injEq] at hk
    refine ⟨_, hk.symm, ?_⟩
    obtain ⟨t, ht⟩ := sent_wrote c (started N s (N.wr c))
    rw [i.vals c, ← ht]
    have hkn : k < (sent c (started N s (N.wr c))).length := by omega
    rw [List.getD_eq_getElem?_getD, List.getElem?_append_left hkn]
    simp [hkn]
  · right
    rw [List.getElem?_append_right (by omega), hlv] at hk
    rw [List.getElem?_replicate] at hk
    split at hk
    · rename_i hlt
      cases hk
      have := hel (by omega)
      exact ⟨rfl, (i.shut c).1 this.1, by omega⟩
    · cases hk

/-- A write that succeeded had a read or room for it. -/
theorem NI.writeRoom {N : Prog} (hN : N.proper) {s : St} (i : NI N s) {p c v : Nat} {l : List Res}
    (hl : l ++ [.ok] <+: s.hist p) (ha : N.act p l = .write c v) :
    (wrote c (done (N.act p) l)).length < nreads c (started N s (N.rd c)) + (s.ch c).cap := by
  have hwr := hN.write _ _ _ _ ha
  have li := i.link c
  unfold LiAt at li
  rw [← i.nextR]
  refine Lo.room li ?_
  have hno : Act.close c ∉ done (N.act p) l := by
    intro h
    have := i.good p l .ok hl
    unfold okAt at this
    rw [ha] at this
    cases this.1 h
  have hd := done_mono (N.act p) hl
  rw [done_snoc, ha] at hd
  have hs : (wrote c (done (N.act p) l)).length + 1 ≤ (sent c (done (N.act p) (s.hist p))).length := by
    have h1 := (sent_mono c hd).length_le
    have h2 := (sent_shut c (done (N.act p) l)).resolve_right hno
    rw [sent_snoc] at h1
    simp [hno] at h1
    omega
  have hle : (sent c (done (N.act p) (s.hist p))).length ≤ (sent c (started N s (N.wr c))).length := by
    rw [hwr]; exact (sent_mono c (done_started N s p)).length_le
  rcases li.okW (wrote c (done (N.act p) l)).length (by omega) with h | h
  · exact h
  · exfalso
    have hpos := wrOn_some h
    obtain ⟨v', ha'⟩ := i.atW _ _ _ hpos
    have h1 := li.last _ h
    rw [← li.len, i.vals c] at h1
    unfold started at h1
    rw [hpos, begun_busy _ _ (by simp), ha', wrote_snoc, hwr] at h1
    simp at h1
    have h3 := (sent_wrote c (done (N.act p) (s.hist p))).length_le
    omega

/-- At rest a coroutine that reads has had all values and the channel is open. -/
theorem NI.restR {N : Prog} (hN : N.proper) {s : St} (i : NI N s) {p c k : Nat} (hp : (s.ch c).posted = [])
    (hr : s.pos p = .reading c k) :
    Act.close c ∉ started N s (N.wr c) ∧
      (sent c (started N s (N.wr c))).length = nreads c (done (N.act p) (s.hist p)) := by
  have ha := i.atR _ _ _ hr
  have hrd := hN.read _ _ _ ha
  have li := i.link c
  unfold LiAt at li
  rw [hrd, hr] at li
  have e : (At.reading c k).rdOn c = some k := by simp [At.rdOn]
  rw [e] at li
  obtain ⟨h1, h2⟩ := li.waitsR hp
  rw [received_length] at h2
  refine ⟨fun h => ?_, h2.symm⟩
  rw [(i.shut c).2 h] at h1; cases h1

/-- At rest a coroutine that writes finds the channel full. -/
theorem NI.restW {N : Prog} (hN : N.proper) {s : St} (i : NI N s) {p c k : Nat} (hp : (s.ch c).posted = [])
    (hw : s.pos p = .writing c k) :
    Act.close c ∉ started N s (N.wr c) ∧
      (wrote c (done (N.act p) (s.hist p))).length = nreads c (started N s (N.rd c)) + (s.ch c).cap := by
  obtain ⟨v, ha⟩ := i.atW _ _ _ hw
  have hwr := hN.write _ _ _ _ ha
  have li := i.link c
  unfold LiAt at li
  rw [hwr, hw] at li
  have e : (At.writing c k).wrOn c = some k := by simp [At.wrOn]
  rw [e] at li
  obtain ⟨h1, h2⟩ := li.waitsW hp
  rw [i.nextR] at h2
  refine ⟨fun h => ?_, ?_⟩
  · rw [(i.shut c).2 h] at h1; cases h1
  · have h3 := li.last k rfl
    rw [← li.len, i.vals c, hwr] at h3
    unfold started at h3
    rw [hw, begun_busy _ _ (by simp), ha, wrote_snoc] at h3
    simp at h3
    omega

end Cobalt.Net
