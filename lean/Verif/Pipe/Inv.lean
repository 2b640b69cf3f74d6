import Verif.Pipe.Stat
/-! Helper: a channel between two coroutines of a chain. -/
namespace Cobalt.Chan

/-- `r` and `w` are the read and the write that somebody waits for; all others have ended and are gone. -/
structure CI (s : St) (r w : Option Nat) : Prop where
  h : WF s none
  t : TK s none
  j : J s none
  curR : ∀ i, r = some i → i < s.nextR
  curW : ∀ i, w = some i → i < s.nextW
  allR : ∀ i, i < s.nextR →
    (r = some i ∧ ((s.R i).status = .susp ∨ (s.R i).status = .done ∧ i ∈ endedR s.log)) ∨
    (r ≠ some i ∧ (s.R i).status = .gone ∧ i ∈ endedR s.log)
  allW : ∀ i, i < s.nextW →
    (w = some i ∧ ((s.W i).status = .susp ∨ (s.W i).status = .done ∧ i ∈ endedW s.log)) ∨
    (w ≠ some i ∧ (s.W i).status = .gone ∧ i ∈ endedW s.log)
  sw : startsW s.log = List.range s.nextW

theorem CI.init (cap : Nat) : CI (St.init cap) none none := by
  refine ⟨WF.init cap, TK.init cap, J.init cap, ?_, ?_, ?_, ?_, rfl⟩ <;> simp [St.init]

theorem CI.endLt {s : St} {r w : Option Nat} (c : CI s r w) {i : Nat} (hi : i ∈ endedR s.log) : i < s.nextR := by
  obtain ⟨x, hx⟩ := (mem_endedR _ _).1 hi
  have := c.t.endR i x hx
  rcases Nat.lt_or_ge i s.nextR with h1 | h1
  · exact h1
  · rw [c.h.rnew i h1] at this; simp at this

theorem CI.endLtW {s : St} {r w : Option Nat} (c : CI s r w) {i : Nat} (hi : i ∈ endedW s.log) : i < s.nextW := by
  obtain ⟨x, hx⟩ := (mem_endedW _ _).1 hi
  have := c.t.endW i x hx
  rcases Nat.lt_or_ge i s.nextW with h1 | h1
  · exact h1
  · rw [c.h.wnew i h1] at this; simp at this

/-- Nobody waits for an operation that has ended. -/
structure Set' (s : St) (r w : Option Nat) : Prop where
  r : ∀ i, r = some i → i ∉ endedR s.log
  w : ∀ i, w = some i → i ∉ endedW s.log

theorem CI.noStale {s : St} {r w : Option Nat} (c : CI s r w) (u : Set' s r w) : s.noStale := by
  constructor
  · intro i hi
    rcases (c.h.rlink i hi).2 with h | h
    · exact h.1
    · have hl : i < s.nextR := by
        rcases Nat.lt_or_ge i s.nextR with h1 | h1
        · exact h1
        · rw [c.h.rnew i h1] at h; cases h.1
      rcases c.allR i hl with ⟨hr, h2 | h2⟩ | h2
      · exact h2
      · exact absurd h2.2 (u.r i hr)
      · rw [h2.2.1] at h; cases h.1
  · intro i hi
    rcases (c.h.wlink i hi).2.2 with h | h
    · exact h.1
    · have hl : i < s.nextW := by
        rcases Nat.lt_or_ge i s.nextW with h1 | h1
        · exact h1
        · rw [c.h.wnew i h1] at h; cases h.1
      rcases c.allW i hl with ⟨hr, h2 | h2⟩ | h2
      · exact h2
      · exact absurd h2.2 (u.w i hr)
      · rw [h2.2.1] at h; cases h.1

theorem outer_plain (s : St) {e : Ev} (he : Pipe.outer e = true) : Prompt s [e] ∧ Spsc s [e] ∧ e ≠ .mkR := by
  cases e <;> first | (cases he; done) | exact ⟨⟨trivial, trivial⟩, ⟨trivial, trivial⟩, by simp⟩

theorem stat_keepR {s s' : St} {m : List Obs} (st : Stat s s' m) (nd : (endedR s'.log).Nodup) {i : Nat} {r : Option Nat}
    (a : (r = some i ∧ ((s.R i).status = .susp ∨ (s.R i).status = .done ∧ i ∈ endedR s.log)) ∨
      (r ≠ some i ∧ (s.R i).status = .gone ∧ i ∈ endedR s.log)) :
    (r = some i ∧ ((s'.R i).status = .susp ∨ (s'.R i).status = .done ∧ i ∈ endedR s'.log)) ∨
      (r ≠ some i ∧ (s'.R i).status = .gone ∧ i ∈ endedR s'.log) := by
  rw [st.log, endedR_app] at nd
  rw [st.log, endedR_app, List.mem_append]
  have dis := (List.nodup_append.1 nd).2.2
  rcases a with ⟨hr, a⟩ | ⟨hr, a, b⟩
  · refine .inl ⟨hr, ?_⟩
    rcases st.r i with h | h | h
    · rw [h]; exact a.imp_right fun a => ⟨a.1, .inl a.2⟩
    · exact .inr ⟨h.1, .inr h.2⟩
    · rw [h.1] at a; simp at a
  · refine .inr ⟨hr, ?_, .inl b⟩
    rcases st.r i with h | h | h
    · rw [h]; exact a
    · exact absurd rfl (dis i b i h.2)
    · rw [h.1] at a; simp at a

theorem stat_keepW {s s' : St} {m : List Obs} (st : Stat s s' m) (nd : (endedW s'.log).Nodup) {i : Nat} {r : Option Nat}
    (a : (r = some i ∧ ((s.W i).status = .susp ∨ (s.W i).status = .done ∧ i ∈ endedW s.log)) ∨
      (r ≠ some i ∧ (s.W i).status = .gone ∧ i ∈ endedW s.log)) :
    (r = some i ∧ ((s'.W i).status = .susp ∨ (s'.W i).status = .done ∧ i ∈ endedW s'.log)) ∨
      (r ≠ some i ∧ (s'.W i).status = .gone ∧ i ∈ endedW s'.log) := by
  rw [st.log, endedW_app] at nd
  rw [st.log, endedW_app, List.mem_append]
  have dis := (List.nodup_append.1 nd).2.2
  rcases a with ⟨hr, a⟩ | ⟨hr, a, b⟩
  · refine .inl ⟨hr, ?_⟩
    rcases st.w i with h | h | h
    · rw [h]; exact a.imp_right fun a => ⟨a.1, .inl a.2⟩
    · exact .inr ⟨h.1, .inr h.2⟩
    · rw [h.1] at a; simp at a
  · refine .inr ⟨hr, ?_, .inl b⟩
    rcases st.w i with h | h | h
    · rw [h]; exact a
    · exact absurd rfl (dis i b i h.2)
    · rw [h.1] at a; simp at a

/-- What others do keeps the invariant. -/
theorem CI.outer {s : St} {r w : Option Nat} (c : CI s r w) (u : Set' s r w) {e : Ev} (he : Pipe.outer e = true) :
    CI (s.step e) r w ∧ ∃ m, (s.step e).log = s.log ++ m ∧ (s.step e).nextR = s.nextR ∧
      (s.step e).nextW = s.nextW := by
  obtain ⟨p1, p2, -⟩ := outer_plain s he
  obtain ⟨h, t, j⟩ := inv_step c.h c.t c.j e p1 p2 (.inl (c.noStale u))
  obtain ⟨m, st⟩ := Stat.outer s he
  refine ⟨⟨h, t, j, ?_, ?_, ?_, ?_, ?_⟩, m, st.log, st.nR, st.nW⟩
  · intro i hi; rw [st.nR]; exact c.curR i hi
  · intro i hi; rw [st.nW]; exact c.curW i hi
  · intro i hi; rw [st.nR] at hi; exact stat_keepR st t.ndER (c.allR i hi)
  · intro i hi; rw [st.nW] at hi; exact stat_keepW st t.ndEW (c.allW i hi)
  · rw [st.log, startsW_app, st.starts, st.nW, List.append_nil]; exact c.sw

theorem step_awaitR {s : St} (hu : s.ub = false) (i : Nat) (conn : Bool) :
    s.step (.awaitR i conn false []) = s.awaitR i conn false [] := by simp [St.step, hu]

theorem step_awaitW {s : St} (hu : s.ub = false) (i : Nat) (conn : Bool) :
    s.step (.awaitW i conn false []) = s.awaitW i conn false [] := by simp [St.step, hu]

/-- `co_await c.read()` when nobody reads. -/
theorem CI.read {s : St} {w : Option Nat} (c : CI s none w) (u : Set' s none w) (conn : Bool) :
    CI ((s.step .mkR).step (.awaitR s.nextR conn false [])) (some s.nextR) w ∧
    ∃ m, ((s.step .mkR).step (.awaitR s.nextR conn false [])).log = s.log ++ m ∧
      ((s.step .mkR).step (.awaitR s.nextR conn false [])).nextR = s.nextR + 1 ∧
      ((s.step .mkR).step (.awaitR s.nextR conn false [])).nextW = s.nextW := by
  have hn := c.noStale u
  obtain ⟨h1, t1, j1⟩ := inv_step c.h c.t c.j .mkR ⟨trivial, trivial⟩ ⟨trivial, trivial⟩ (.inl hn)
  have hmk : (s.step .mkR) = { s with R := upd s.R s.nextR { status := .fresh }, nextR := s.nextR + 1 } := by
    simp [St.step, c.j.ub]
  have hone : ∀ k, ((s.step .mkR).R k).status ≠ .susp := by
    intro k
    rw [hmk]; dsimp only; rw [upd_apply]
    split
    · simp
    · intro hs
      rcases Nat.lt_or_ge k s.nextR with hk | hk
      · rcases c.allR k hk with h | h
        · cases h.1
        · rw [hs] at h; cases h.2.1
      · rw [c.h.rnew k hk] at hs; cases hs
  have hst : (s.step .mkR).noStale := by
    rw [hmk]
    refine ⟨fun i hi => ?_, hn.2⟩
    have := hn.1 i hi
    dsimp only; rw [upd_apply]
    split
    · subst_vars; rw [c.h.rnew _ (Nat.le_refl _)] at this; cases this
    · exact this
  obtain ⟨h2, t2, j2⟩ := inv_step h1 t1 j1 (.awaitR s.nextR conn false []) ⟨trivial, trivial⟩
    ⟨hone, trivial⟩ (.inl hst)
  have hf : ((s.step .mkR).R s.nextR).status = .fresh := by rw [hmk]; simp [upd]
  obtain ⟨⟨m, st⟩, hnf⟩ := Stat.awaitR (s.step .mkR) s.nextR conn hf
  have he : (s.step .mkR).step (.awaitR s.nextR conn false []) = (s.step .mkR).awaitR s.nextR conn false [] :=
    step_awaitR j1.ub _ _
  rw [← he] at st hnf
  have hnf' := hnf.resolve_left (by rw [j2.ub]; simp)
  have e1 : (s.step .mkR).nextR = s.nextR + 1 := by rw [hmk]
  have e2 : (s.step .mkR).nextW = s.nextW := by rw [hmk]
  have e3 : (s.step .mkR).log = s.log := by rw [hmk]
  have e4 : (s.step .mkR).W = s.W := by rw [hmk]
  refine ⟨⟨h2, t2, j2, ?_, ?_, ?_, ?_, ?_⟩, m, by rw [st.log, e3], by rw [st.nR, e1], by rw [st.nW, e2]⟩
  · intro i hi; cases hi; rw [st.nR, e1]; omega
  · intro i hi; rw [st.nW, e2]; exact c.curW i hi
  · intro i hi
    rw [st.nR, e1] at hi
    by_cases hk : i = s.nextR
    · subst hk
      refine .inl ⟨rfl, ?_⟩
      rcases st.r s.nextR with h | h | h
      · rw [hf] at h; exact absurd h hnf'
      · right; refine ⟨h.1, ?_⟩; rw [st.log, endedR_app]; exact List.mem_append_right _ h.2
      · left; exact h.2
    · have h := stat_keepR st t2.ndER (i := i) (r := none) (by
        have := c.allR i (by omega)
        rw [hmk]; dsimp only; rw [upd_apply, if_neg hk]; exact this)
      rcases h with h | h
      · cases h.1
      · right; exact ⟨by simpa using fun h => hk h.symm, h.2⟩
  · intro i hi
    rw [st.nW, e2] at hi
    exact stat_keepW st t2.ndEW (by rw [e3, e4]; exact c.allW i hi)
  · rw [st.log, startsW_app, st.starts, st.nW, List.append_nil, e3, e2]; exact c.sw

/-- `co_await c.write(v)` when nobody writes. -/
theorem CI.write {s : St} {r : Option Nat} (c : CI s r none) (u : Set' s r none) (conn : Bool) :
    CI ((s.step .mkW).step (.awaitW s.nextW conn false [])) r (some s.nextW) ∧
    ∃ m, ((s.step .mkW).step (.awaitW s.nextW conn false [])).log = s.log ++ m ∧
      ((s.step .mkW).step (.awaitW s.nextW conn false [])).nextR = s.nextR ∧
      ((s.step .mkW).step (.awaitW s.nextW conn false [])).nextW = s.nextW + 1 := by
  have hn := c.noStale u
  obtain ⟨h1, t1, j1⟩ := inv_step c.h c.t c.j .mkW ⟨trivial, trivial⟩ ⟨trivial, trivial⟩ (.inl hn)
  have hmk : (s.step .mkW) = { s with W := upd s.W s.nextW { status := .fresh, closedF := s.closed },
                                      nextW := s.nextW + 1 } := by
    simp [St.step, c.j.ub]
  have hone : ∀ k, ((s.step .mkW).W k).status ≠ .susp := by
    intro k
    rw [hmk]; dsimp only; rw [upd_apply]
    split
    · simp
    · intro hs
      rcases Nat.lt_or_ge k s.nextW with hk | hk
      · rcases c.allW k hk with h | h
        · cases h.1
        · rw [hs] at h; cases h.2.1
      · rw [c.h.wnew k hk] at hs; cases hs
  have hst : (s.step .mkW).noStale := by
    rw [hmk]
    refine ⟨hn.1, fun i hi => ?_⟩
    have := hn.2 i hi
    dsimp only; rw [upd_apply]
    split
    · subst_vars; rw [c.h.wnew _ (Nat.le_refl _)] at this; cases this
    · exact this
  obtain ⟨h2, t2, j2⟩ := inv_step h1 t1 j1 (.awaitW s.nextW conn false [])
    ⟨by rw [hmk]; dsimp only; rw [upd_apply, if_pos rfl]; exact fun h => h, trivial⟩ ⟨hone, trivial⟩ (.inl hst)
  have hf : ((s.step .mkW).W s.nextW).status = .fresh := by rw [hmk]; simp [upd]
  obtain ⟨⟨m, st⟩, hnf⟩ := Stat.awaitW (s.step .mkW) s.nextW conn hf
  have he : (s.step .mkW).step (.awaitW s.nextW conn false []) = (s.step .mkW).awaitW s.nextW conn false [] :=
    step_awaitW j1.ub _ _
  rw [← he] at st hnf
  have hnf' := hnf.resolve_left (by rw [j2.ub]; simp)
  have e1 : (s.step .mkW).nextR = s.nextR := by rw [hmk]
  have e2 : (s.step .mkW).nextW = s.nextW + 1 := by rw [hmk]
  have e3 : (s.step .mkW).log = s.log := by rw [hmk]
  have e4 : (s.step .mkW).R = s.R := by rw [hmk]
  have n1 := st.nR
  have n2 := st.nW
  have l1 := st.log
  dsimp only at n1 n2 l1
  have hE : ∀ a : List Obs, endedR (a ++ [Obs.startW s.nextW]) = endedR a := by intro a; simp [endedR]
  have hE' : ∀ a : List Obs, endedW (a ++ [Obs.startW s.nextW]) = endedW a := by intro a; simp [endedW]
  refine ⟨⟨h2, t2, j2, ?_, ?_, ?_, ?_, ?_⟩, [Obs.startW s.nextW] ++ m,
    by rw [l1, e3, List.append_assoc], by rw [n1, e1], by rw [n2, e2]⟩
  · intro i hi; rw [n1, e1]; exact c.curR i hi
  · intro i hi; cases hi; rw [n2, e2]; omega
  · intro i hi
    rw [n1, e1] at hi
    refine stat_keepR st t2.ndER ?_
    dsimp only
    rw [hE, e3, e4]; exact c.allR i hi
  · intro i hi
    rw [n2, e2] at hi
    by_cases hk : i = s.nextW
    · subst hk
      refine .inl ⟨rfl, ?_⟩
      rcases st.w s.nextW with h | h | h
      · dsimp only at h; rw [hf] at h; exact absurd h hnf'
      · right; refine ⟨h.1, ?_⟩; rw [l1, endedW_app]; exact List.mem_append_right _ h.2
      · left; exact h.2
    · have h := stat_keepW st t2.ndEW (i := i) (r := none) (by
        have := c.allW i (by omega)
        dsimp only
        rw [hE', hmk]; dsimp only; rw [upd_apply, if_neg hk]; exact this)
      rcases h with h | h
      · cases h.1
      · right; exact ⟨by simpa using fun h => hk h.symm, h.2⟩
  · have hs := st.starts
    rw [l1, startsW_app, hs, n2, List.append_nil, e3, e2, startsW_startW, c.sw, List.range_succ]

theorem step_dropR {s : St} (hu : s.ub = false) (i : Nat) (hd : (s.R i).status = .done) :
    s.step (.dropR i) = { s with R := upd s.R i { s.R i with status := .gone }, rq := s.rq.erase i } := by
  simp [St.step, hu, St.dropR, hd]

theorem step_dropW {s : St} (hu : s.ub = false) (i : Nat) (hd : (s.W i).status = .done) :
    s.step (.dropW i) = { s with W := upd s.W i { s.W i with status := .gone }, wq := s.wq.erase i } := by
  simp [St.step, hu, St.dropW, hd]

/-- The read has ended and is destroyed. -/
theorem CI.dropR {s : St} {w : Option Nat} {i : Nat} (c : CI s (some i) w) (hi : i ∈ endedR s.log) :
    CI (s.step (.dropR i)) none w ∧ (s.step (.dropR i)).log = s.log ∧ (s.step (.dropR i)).nextW = s.nextW := by
  obtain ⟨h, t, j⟩ := inv_step c.h c.t c.j (.dropR i) ⟨trivial, trivial⟩ ⟨trivial, trivial⟩ (.inr rfl)
  have hd : (s.R i).status = .done := by
    rcases c.allR i (c.curR i rfl) with ⟨-, h | h⟩ | h
    · obtain ⟨x, hx⟩ := (mem_endedR _ _).1 hi
      have := c.t.endR i x hx
      rw [h] at this; simp at this
    · exact h.1
    · exact absurd rfl h.1
  have e := step_dropR c.j.ub i hd
  refine ⟨⟨h, t, j, ?_, ?_, ?_, ?_, ?_⟩, by rw [e], by rw [e]⟩
  · intro k hk; cases hk
  · rw [e]; exact c.curW
  · rw [e]; dsimp only
    intro k hk
    refine .inr ⟨by simp, ?_⟩
    rw [upd_apply]; split
    · subst_vars; exact ⟨rfl, hi⟩
    · rename_i hne
      rcases c.allR k hk with h | h
      · exact absurd (by simpa using h.1.symm) hne
      · exact h.2
  · rw [e]; exact c.allW
  · rw [e]; exact c.sw

/-- The write has ended and is destroyed. -/
theorem CI.dropW {s : St} {r : Option Nat} {i : Nat} (c : CI s r (some i)) (hi : i ∈ endedW s.log) :
    CI (s.step (.dropW i)) r none ∧ (s.step (.dropW i)).log = s.log ∧ (s.step (.dropW i)).nextW = s.nextW := by
  obtain ⟨h, t, j⟩ := inv_step c.h c.t c.j (.dropW i) ⟨trivial, trivial⟩ ⟨trivial, trivial⟩ (.inr rfl)
  have hd : (s.W i).status = .done := by
    rcases c.allW i (c.curW i rfl) with ⟨-, h | h⟩ | h
    · obtain ⟨x, hx⟩ := (mem_endedW _ _).1 hi
      have := c.t.endW i x hx
      rw [h] at this; simp at this
    · exact h.1
    · exact absurd rfl h.1
  have e := step_dropW c.j.ub i hd
  refine ⟨⟨h, t, j, ?_, ?_, ?_, ?_, ?_⟩, by rw [e], by rw [e]⟩
  · rw [e]; exact c.curR
  · intro k hk; cases hk
  · rw [e]; exact c.allR
  · rw [e]; dsimp only
    intro k hk
    refine .inr ⟨by simp, ?_⟩
    rw [upd_apply]; split
    · subst_vars; exact ⟨rfl, hi⟩
    · rename_i hne
      rcases c.allW k hk with h | h
      · exact absurd (by simpa using h.1.symm) hne
      · exact h.2
  · rw [e]; exact c.sw

/-- What the read has obtained. -/
def newOf (r : Option Nat) (log : List Obs) : List Nat :=
  match r with
  | some i => (match resultOf log i with | some (.value v) => [v] | _ => [])
  | none => []

/-- What a step delivers is the value of the read that somebody waits for. -/
theorem CI.new {s' : St} {r w : Option Nat} (c : CI s' r w) {l m : List Obs} (hm : s'.log = l ++ m)
    (hold : ∀ i, i < s'.nextR → r = some i ∨ i ∈ endedR l) (hr : ∀ i, r = some i → i ∉ endedR l) :
    delivered s'.log = delivered l ++ newOf r s'.log := by
  have hnd : (endedR l ++ endedR m).Nodup := by rw [← endedR_append, ← hm]; exact c.t.ndER
  have h1 : ∀ k ∈ endedR m, r = some k := by
    intro k hk
    have hk' : k ∈ endedR s'.log := by rw [hm, endedR_append]; exact List.mem_append_right _ hk
    rcases hold k (c.endLt hk') with h2 | h2
    · exact h2
    · exact absurd rfl ((List.nodup_append.1 hnd).2.2 k h2 k hk)
  rw [hm, delivered_append]
  congr 1
  cases r with
  | none =>
    have h2 : endedR m = [] := by
      rw [List.eq_nil_iff_forall_not_mem]
      intro k hk; cases h1 k hk
    have := delivered_single m 0 (by simp [h2]) (by simp [h2])
    rw [this, resultOf_none.2 (by simp [h2])]; rfl
  | some i =>
    unfold newOf; dsimp only
    rw [← hm, hm, resultOf_append _ _ _ (hr i rfl)]
    exact delivered_single m i (fun k hk => by simpa using (h1 k hk).symm) (List.nodup_append.1 hnd).2.1

end Cobalt.Chan
