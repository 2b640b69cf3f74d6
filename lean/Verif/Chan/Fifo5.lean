import Verif.Chan.Fifo4
/-! Helper: one producer and one consumer, without asking that interrupted
operations are destroyed at once; up to undefined behaviour. -/
namespace Cobalt.Chan

/-- Queues shrink and nobody starts to wait. -/
structure Shr (s s' : St) : Prop where
  rq : s'.rq.Sublist s.rq
  wq : s'.wq.Sublist s.wq
  r : ∀ i, (s'.R i).waiting = true → (s.R i).waiting = true
  w : ∀ i, (s'.W i).waiting = true → (s.W i).waiting = true

theorem Shr.refl (s : St) : Shr s s := ⟨List.Sublist.refl _, List.Sublist.refl _, fun _ => id, fun _ => id⟩
theorem Shr.trans {a b c : St} (h : Shr a b) (g : Shr b c) : Shr a c :=
  ⟨g.rq.trans h.rq, g.wq.trans h.wq, fun i hi => h.r i (g.r i hi), fun i hi => h.w i (g.w i hi)⟩

/-- Only the last operation of a queue can still have a coroutine waiting on it. -/
structure Last (s : St) : Prop where
  rq : ∀ i ∈ s.rq.dropLast, (s.R i).waiting = false
  wq : ∀ i ∈ s.wq.dropLast, (s.W i).waiting = false

theorem sublist_dropLast {α : Type} {l m : List α} (h : l.Sublist m) : l.dropLast.Sublist m.dropLast := by
  have h1 := (List.reverse_sublist.2 h).tail
  rw [List.tail_reverse, List.tail_reverse] at h1
  exact List.reverse_sublist.1 h1

theorem Last.shr {s s' : St} (l : Last s) (h : Shr s s') : Last s' := by
  constructor
  · intro i hi
    have := l.rq i ((sublist_dropLast h.rq).subset hi)
    have := h.r i
    grind
  · intro i hi
    have := l.wq i ((sublist_dropLast h.wq).subset hi)
    have := h.w i
    grind

theorem Last.headR {s : St} (l : Last s) {w : Nat} {rest : List Nat} (hq : s.rq = w :: rest)
    (hw : (s.R w).waiting = true) : rest = [] := by
  cases rest with
  | nil => rfl
  | cons x y =>
    have := l.rq w (by simp [hq])
    simp [hw] at this

theorem Last.headW {s : St} (l : Last s) {w : Nat} {rest : List Nat} (hq : s.wq = w :: rest)
    (hw : (s.W w).waiting = true) : rest = [] := by
  cases rest with
  | nil => rfl
  | cons x y =>
    have := l.wq w (by simp [hq])
    simp [hw] at this

theorem shr_endR (s : St) (i : Nat) (res : RRes) : Shr s (s.endR i res) := by
  constructor <;> simp only [St.endR, List.Sublist.refl] <;> grind
theorem shr_endW (s : St) (i : Nat) (res : WRes) : Shr s (s.endW i res) := by
  constructor <;> simp only [St.endW, List.Sublist.refl] <;> grind

theorem shr_wakeWriter (s : St) : Shr s s.wakeWriter := by
  unfold St.wakeWriter
  split
  · exact Shr.refl s
  · rename_i w rest hq
    have hs : rest.Sublist s.wq := by rw [hq]; exact List.sublist_cons_self _ _
    dsimp only
    split
    · split
      · exact ⟨List.Sublist.refl _, hs, fun _ => id, by intro k; simp only; grind⟩
      · exact ⟨List.Sublist.refl _, List.Sublist.refl _, fun _ => id, fun _ => id⟩
    · exact ⟨List.Sublist.refl _, List.Sublist.refl _, fun _ => id, fun _ => id⟩

theorem shr_wakeReader (s : St) : Shr s s.wakeReader := by
  unfold St.wakeReader
  split
  · exact Shr.refl s
  · rename_i w rest hq
    have hs : rest.Sublist s.rq := by rw [hq]; exact List.sublist_cons_self _ _
    dsimp only
    split
    · split
      · exact ⟨hs, List.Sublist.refl _, by intro k; simp only; grind, fun _ => id⟩
      · exact ⟨List.Sublist.refl _, List.Sublist.refl _, fun _ => id, fun _ => id⟩
    · exact ⟨List.Sublist.refl _, List.Sublist.refl _, fun _ => id, fun _ => id⟩

theorem shr_id {s s' : St} (h1 : s'.rq = s.rq) (h2 : s'.wq = s.wq) (h3 : s'.R = s.R) (h4 : s'.W = s.W) :
    Shr s s' := by
  constructor
  · rw [h1]
  · rw [h2]
  · rw [h3]; exact fun _ => id
  · rw [h4]; exact fun _ => id

theorem Shr.pre {s m s' : St} (h : Shr m s') (h1 : m.rq = s.rq) (h2 : m.wq = s.wq) (h3 : m.R = s.R)
    (h4 : m.W = s.W) : Shr s s' := (shr_id h1 h2 h3 h4).trans h

theorem Shr.post {s m s' : St} (h : Shr s m) (h1 : s'.rq = m.rq) (h2 : s'.wq = m.wq) (h3 : s'.R = m.R)
    (h4 : s'.W = m.W) : Shr s s' := h.trans (shr_id h1 h2 h3 h4)

theorem shr_resumeR (s : St) (i : Nat) : Shr s (s.resumeR i) := by
  unfold St.resumeR
  split
  · exact shr_endR ..
  · split
    · exact shr_endR ..
    · split
      · exact shr_id rfl rfl rfl rfl
      · exact (shr_endR s i _).trans (shr_wakeWriter _)
      · exact (shr_endR s i .aborted).trans ((shr_wakeWriter _).pre rfl rfl rfl rfl)
      · exact (shr_endR s i .aborted).trans ((shr_wakeWriter _).pre rfl rfl rfl rfl)

theorem shr_resumeW (s : St) (i : Nat) : Shr s (s.resumeW i) := by
  unfold St.resumeW
  split
  · exact shr_endW ..
  · split
    · exact shr_endW ..
    · split
      · exact (shr_endW s i _).trans (shr_wakeReader _)
      · exact (shr_endW s i .ok).trans ((shr_wakeReader _).pre rfl rfl rfl rfl)

theorem shr_int (s : St) (x : Tok) : Shr s (s.int x) := by
  cases x with
  | r i =>
    have h1 : Shr s { s with R := upd s.R i { s.R i with cancelled := true } } :=
      ⟨List.Sublist.refl _, List.Sublist.refl _, by intro k; simp only; grind, fun _ => id⟩
    simp only [St.int, St.intR]
    split
    · exact Shr.refl s
    · split
      · exact Shr.refl s
      · split
        · exact h1.trans (shr_resumeR _ _)
        · exact h1
  | w i =>
    have h1 : Shr s { s with W := upd s.W i { s.W i with cancelled := true } } :=
      ⟨List.Sublist.refl _, List.Sublist.refl _, fun _ => id, by intro k; simp only; grind⟩
    simp only [St.int, St.intW]
    split
    · exact Shr.refl s
    · split
      · exact Shr.refl s
      · split
        · exact h1.trans (shr_resumeW _ _)
        · exact h1

theorem shr_hits (ts : List Tok) : ∀ s : St, Shr s (ts.foldl St.int s) := by
  induction ts with
  | nil => intro s; exact Shr.refl s
  | cons x ts ih => intro s; exact (shr_int s x).trans (ih _)

/-- Awaiting keeps `Last`, if nobody else of the same kind is waiting. -/
theorem Last.awaitR {s : St} (h : WF s none) (l : Last s) (hone : ∀ k, (s.R k).status ≠ .susp)
    (i : Nat) (conn txn : Bool) (hits : List Tok) : Last (s.awaitR i conn txn hits) := by
  rw [awaitR_eq]
  split
  · exact l
  · rename_i hf
    simp only [ne_eq, Decidable.not_not] at hf
    have hno : ∀ k, (s.R k).waiting = false := by
      intro k
      have := h.rwait k
      have := hone k
      grind
    have hnq : i ∉ s.rq := by intro hi; have := h.rlink i hi; simp [hf] at this
    dsimp only
    split
    · exact l.shr ((shr_resumeR _ _).pre rfl rfl rfl rfl)
    · split
      · constructor
        · intro k hk
          simp only [St.queueR, List.dropLast_concat] at hk ⊢
          have := hno k
          grind
        · exact l.wq
      · split
        · apply l.shr
          refine ⟨?_, ?_, ?_, ?_⟩
          · exact ((shr_hits _ _).trans (shr_resumeW _ _)).rq.trans (by simp [St.takeFrom, St.handR])
          · exact ((shr_hits _ _).trans (shr_resumeW _ _)).wq.trans
              (by simp only [St.takeFrom, St.handR]; exact List.erase_sublist)
          · intro k hk
            have := ((shr_hits _ _).trans (shr_resumeW _ _)).r k hk
            simp only [St.takeFrom, St.handR] at this
            grind
          · intro k hk
            have := ((shr_hits _ _).trans (shr_resumeW _ _)).w k hk
            simp only [St.takeFrom, St.handR] at this
            grind
        · exact l.shr (shr_id rfl rfl rfl rfl)

theorem Last.awaitW {s : St} (h : WF s none) (l : Last s) (hone : ∀ k, (s.W k).status ≠ .susp)
    (i : Nat) (conn txn : Bool) (hits : List Tok) : Last (s.awaitW i conn txn hits) := by
  rw [awaitW_eq]
  split
  · exact l
  · rename_i hf
    simp only [ne_eq, Decidable.not_not] at hf
    have hno : ∀ k, (s.W k).waiting = false := by
      intro k
      have := h.wwait k
      have := hone k
      grind
    have hnq : i ∉ s.wq := by intro hi; have := h.wlink i hi; simp [hf] at this
    dsimp only
    split
    · exact l.shr ((shr_resumeW _ _).pre rfl rfl rfl rfl)
    · split
      · constructor
        · exact l.rq
        · intro k hk
          simp only [St.queueW, List.dropLast_concat] at hk ⊢
          have := hno k
          grind
      · split
        · apply l.shr
          refine ⟨?_, ?_, ?_, ?_⟩
          · exact ((shr_hits _ _).trans (shr_resumeR _ _)).rq.trans
              (by simp only [St.giveTo, St.handW]; exact List.erase_sublist)
          · exact ((shr_hits _ _).trans (shr_resumeR _ _)).wq.trans (by simp [St.giveTo, St.handW])
          · intro k hk
            have := ((shr_hits _ _).trans (shr_resumeR _ _)).r k hk
            simp only [St.giveTo, St.handW] at this
            grind
          · intro k hk
            have := ((shr_hits _ _).trans (shr_resumeR _ _)).w k hk
            simp only [St.giveTo, St.handW] at this
            grind
        · exact l.shr (shr_id rfl rfl rfl rfl)

theorem Last.step {s : St} (h : WF s none) (l : Last s) (e : Ev) (ho : Spsc s [e]) : Last (s.step e) := by
  unfold St.step
  split
  · exact l
  · have rr := @List.Sublist.refl Nat
    cases e with
    | mkR =>
      have h1 := h.rnew s.nextR (Nat.le_refl _)
      exact l.shr ⟨rr _, rr _, by intro k; simp only; grind, fun _ => id⟩
    | mkW =>
      have h1 := h.wnew s.nextW (Nat.le_refl _)
      exact l.shr ⟨rr _, rr _, fun _ => id, by intro k; simp only; grind⟩
    | awaitR i c x hs => exact l.awaitR h ho.1 i c x hs
    | awaitW i c x hs => exact l.awaitW h ho.1 i c x hs
    | run k =>
      dsimp only [St.run]
      split
      · exact l
      · exact l.shr ((shr_resumeR _ _).pre rfl rfl rfl rfl)
      · exact l.shr ((shr_resumeW _ _).pre rfl rfl rfl rfl)
    | cancelR i =>
      dsimp only [St.cancelR]
      split
      · exact l.shr ⟨List.erase_sublist, rr _, by intro k; simp only; grind, fun _ => id⟩
      · exact l
    | cancelW i =>
      dsimp only [St.cancelW]
      split
      · exact l.shr ⟨rr _, List.erase_sublist, fun _ => id, by intro k; simp only; grind⟩
      · exact l
    | intR i => exact l.shr (shr_int s (.r i))
    | intW i => exact l.shr (shr_int s (.w i))
    | dropR i =>
      dsimp only [St.dropR]
      split
      · exact l.shr ⟨List.erase_sublist, rr _, by intro k; simp only; grind, fun _ => id⟩
      · exact l
    | dropW i =>
      dsimp only [St.dropW]
      split
      · exact l.shr ⟨rr _, List.erase_sublist, fun _ => id, by intro k; simp only; grind⟩
      · exact l
    | close => constructor <;> simp [St.close]

/-! The steps again, now up to undefined behaviour. -/

theorem J.wakeWriter' {s : St} (h : WF s none) (j : JC s none) (l : Last s) (hr : s.rq = [])
    (hlen : s.buf.length < s.cap) : s.wakeWriter.ub = true ∨ J s.wakeWriter none := by
  by_cases hns : ∀ w ∈ s.wq, (s.W w).waiting = true
  · exact Or.inr (J.wakeWriter h j hr hlen hns)
  · left
    cases hq : s.wq with
    | nil => simp [hq] at hns
    | cons w rest =>
      by_cases hw : (s.W w).waiting = true
      · have := l.headW hq hw
        simp [hq, this, hw] at hns
      · have hne : s.buf.length ≠ s.cap := by omega
        simp [St.wakeWriter, hq, St.writeReady, hne, hw]

theorem J.wakeReader' {s : St} (h : WF s none) (j : JC s none) (l : Last s) (hr : s.wq = [])
    (hlen : s.buf ≠ []) : s.wakeReader.ub = true ∨ J s.wakeReader none := by
  by_cases hns : ∀ w ∈ s.rq, (s.R w).waiting = true
  · exact Or.inr (J.wakeReader h j hr hlen hns)
  · left
    cases hq : s.rq with
    | nil => simp [hq] at hns
    | cons w rest =>
      by_cases hw : (s.R w).waiting = true
      · have := l.headR hq hw
        simp [hq, this, hw] at hns
      · simp [St.wakeReader, hq, St.readReady, hlen, hw]

theorem J.resumeR' {s : St} {i : Nat} (h : WF s (some (.r i))) (j : J s (some (.r i))) (l : Last s) :
    (s.resumeR i).ub = true ∨ J (s.resumeR i) none := by
  have hc := h.rcur i rfl
  have hlen := h.len
  unfold St.resumeR
  split
  · rename_i hcl
    exact Or.inr ⟨j.toJC.failR h (by simp) (by simp at hcl; exact hcl.2), j.rqb, j.wqb⟩
  · rename_i hcl
    split
    · rename_i hca
      have hd : (s.R i).direct = none := by
        cases hd : (s.R i).direct with
        | none => rfl
        | some d => have := h.rdir i d hd; simp [hca] at this
      exact Or.inr ⟨j.toJC.failR h (by simp) hd, j.rqb, j.wqb⟩
    · rename_i hca
      split
      · exact Or.inl rfl
      · rename_i d hb hd
        right
        have hj := j.toJC.valDirect h hd hb
        have hcap := j.dirR i (by simp [hd])
        have hx : (s.endR i (.value d)).wakeWriter = s.endR i (.value d) := by
          rcases hq : s.wq with _ | ⟨w, rest⟩
          · unfold St.wakeWriter
            simp [St.endR, hq]
          · have h1 : s.rq = [] := by have := h.excl; simp [hq] at this; exact this
            have h2 : s.closed = false := by have := h.closedQ; grind
            exact wakeWriter_noop h1 (Or.inr (by simp [St.writeReady, St.endR, hb, hcap, h2]))
        rw [hx]
        exact ⟨hj, j.rqb, j.wqb⟩
      · rename_i b bs hb hd
        have hj := j.toJC.valFront h hd hb
        have hr : s.rq = [] := by
          by_cases hr : s.rq = []
          · exact hr
          · have := j.rqb hr; simp [hb] at this
        apply J.wakeWriter' _ hj (l.shr ((shr_endR s i .aborted).post rfl rfl rfl rfl)) hr
        · simp only [St.endR]; simp [hb] at hlen; omega
        · exact (h.endR _).setBuf' bs (by simp only [St.endR]; simp [hb] at hlen; omega)
      · rename_i b bs d hb hd
        exfalso
        have := j.dirR i (by simp [hd])
        simp [hb] at hlen
        omega

theorem J.resumeW' {s : St} {i : Nat} (h : WF s (some (.w i))) (t : TK s (some (.w i)))
    (j : J s (some (.w i))) (l : Last s) : (s.resumeW i).ub = true ∨ J (s.resumeW i) none := by
  by_cases hns : ∀ w ∈ s.rq, (s.R w).waiting = true
  · exact Or.inr (j.resumeW h t hns)
  have hc := h.wcur i rfl
  have hlen := h.len
  unfold St.resumeW
  split
  · rename_i hcl
    have hd : (s.W i).direct = false := by have := h.wdir i; grind
    exact Or.inr ⟨j.toJC.failW h (by simp) hd, j.rqb, j.wqb⟩
  · rename_i hcl
    split
    · rename_i hca
      have hd : (s.W i).direct = false := by have := h.wdir i; grind
      exact Or.inr ⟨j.toJC.failW h (by simp) hd, j.rqb, j.wqb⟩
    · rename_i hca
      split
      · rename_i hd
        right
        have hj := j.toJC.okDirect h hd
        have hcap := j.dirW i hd
        have hb : s.buf = [] := by
          have := h.len; rw [hcap] at this; simpa using this
        have hx : (s.endW i .ok).wakeReader = s.endW i .ok := by
          rcases hq : s.rq with _ | ⟨w, rest⟩
          · unfold St.wakeReader
            simp [St.endW, hq]
          · have h1 : s.wq = [] := by have := h.excl; simp [hq] at this; exact this
            have h2 : s.closed = false := by have := h.closedQ; grind
            exact wakeReader_noop h1 (Or.inr (by simp [St.readReady, St.endW, hb, h2]))
        rw [hx]
        exact ⟨hj, j.rqb, j.wqb⟩
      · rename_i hd
        obtain ⟨hl, hj⟩ := j.toJC.okPush h t (by simpa using hcl) (by simpa using hca) (by simpa using hd)
        have hpb : pushBack s.cap s.buf i = s.buf ++ [i] := by
          unfold pushBack
          rw [if_neg (by omega), if_neg (by omega)]
        have hw : s.wq = [] := by
          by_cases hr : s.wq = []
          · exact hr
          · have := j.wqb hr; omega
        rw [hpb]
        apply J.wakeReader' _ hj (l.shr ((shr_endW s i .ok).post rfl rfl rfl rfl)) hw
        · simp
        · exact (h.endW _).setBuf _ _ (by simp only [St.endW]; simp; omega)

theorem J.awaitR' {s : St} (h : WF s none) (t : TK s none) (j : J s none) (l : Last s)
    (hone : ∀ k, (s.R k).status ≠ .susp) (i : Nat) (conn txn : Bool) (hits : List Tok) :
    (s.awaitR i conn txn hits).ub = true ∨ J (s.awaitR i conn txn hits) none := by
  rw [awaitR_eq]
  split
  · exact Or.inr j
  · rename_i hf
    simp only [ne_eq, Decidable.not_not] at hf
    have hl := h.logged (s.log ++ [Obs.startR i])
    have hdn := h.rfresh i hf
    dsimp only
    split
    · rename_i hc
      have hp : s.buf ≠ [] ∨ s.closed = true ∨ (s.R i).cancelled = true := by
        simp [St.readReady] at hc; tauto
      have hj : J { s with log := s.log ++ [Obs.startR i] } (some (.r i)) :=
        ⟨j.toJC.startR hone hp hdn, j.rqb, j.wqb⟩
      exact hj.resumeR' (hl.grabR hf) (l.shr (shr_id rfl rfl rfl rfl))
    · rename_i hc
      simp only [St.readReady, not_or, Bool.not_eq_true, Bool.or_eq_false_iff] at hc
      have hb : s.buf = [] := by simpa using hc.1.1
      split
      · rename_i hq
        exact Or.inr ⟨j.toJC.queueR h hone hf conn txn, fun _ => hb, fun hw => absurd hq hw⟩
      · rename_i w rest hq
        by_cases hw : (s.W w).waiting = true
        · rw [if_pos hw]
          have hcap : s.cap = 0 := by
            have := j.wqb (by simp [hq])
            simpa [hb] using this.symm
          have hr : s.rq = [] := by have := h.excl; simp [hq] at this; exact this
          have hj : J ((({ s with log := s.log ++ [Obs.startR i] } : St).takeFrom i w txn).handR i w) (some (.w w)) :=
            ⟨j.toJC.handR h t hone hf hw hcap txn, fun _ => hb, fun _ => by simp [St.takeFrom, St.handR, hb, hcap]⟩
          have hw1 := hl.handR txn hf hc.2 hq hw
          have ht1 := (t.startR (i := i)).handR hl txn hf hw
          right
          apply (hj.hits hw1 _).resumeW (hw1.hits _) (ht1.hits hw1 _)
          rw [(hits_rq _ _).1]
          simp [St.takeFrom, St.handR, hr]
        · rw [if_neg hw]; exact Or.inl rfl

theorem J.awaitW' {s : St} (h : WF s none) (t : TK s none) (j : J s none) (l : Last s)
    (hone : ∀ k, (s.W k).status ≠ .susp) (i : Nat)
    (hpr : s.closed = true → (s.W i).closedF = true) (conn txn : Bool) (hits : List Tok) :
    (s.awaitW i conn txn hits).ub = true ∨ J (s.awaitW i conn txn hits) none := by
  rw [awaitW_eq]
  split
  · exact Or.inr j
  · rename_i hf
    simp only [ne_eq, Decidable.not_not] at hf
    have hl := h.logged (s.log ++ [Obs.startW i])
    have hlen := h.len
    have hdn := h.wfresh i hf
    have hns : Obs.startW i ∉ s.log := by
      rcases t.noStW i (Or.inl hf) with h | h
      · exact h
      · simp at h
    have hnd : Obs.doneW i .ok ∉ s.log := by
      intro hm; have := t.endW i _ hm; grind
    dsimp only
    split
    · rename_i hc
      have hp : s.buf.length < s.cap ∨ (s.W i).closedF = true ∨ (s.W i).cancelled = true := by
        simp [St.writeReady] at hc
        rcases hc with (hc | hc) | hc
        · left; omega
        · right; left; exact hpr hc
        · right; right; exact hc
      have hj : J { s with log := s.log ++ [Obs.startW i] } (some (.w i)) :=
        ⟨j.toJC.startW hone hp hns hnd, j.rqb, j.wqb⟩
      exact hj.resumeW' (hl.grabW hf) t.startW (l.shr (shr_id rfl rfl rfl rfl))
    · rename_i hc
      simp only [St.writeReady, not_or, Bool.not_eq_true, Bool.or_eq_false_iff] at hc
      have hb : s.buf.length = s.cap := by simpa using hc.1.1
      have hk : (s.W i).closedF = false := by
        have := h.wclosed i
        have := hc.1.2
        grind
      split
      · rename_i hq
        exact Or.inr ⟨j.toJC.queueW h hone hf hns hnd conn txn, fun hw => absurd hq hw, fun _ => hb⟩
      · rename_i w rest hq
        by_cases hw : (s.R w).waiting = true
        · rw [if_pos hw]
          have hb0 : s.buf = [] := j.rqb (by simp [hq])
          have hcap : s.cap = 0 := by simpa [hb0] using hb.symm
          have hr : s.wq = [] := by have := h.excl; simp [hq] at this; exact this
          have hj : J ((({ s with log := s.log ++ [Obs.startW i] } : St).giveTo i w txn).handW i w) (some (.r w)) :=
            ⟨j.toJC.handW h hone hns hnd hf hw hcap txn, fun _ => hb0, fun _ => by simp [St.giveTo, St.handW, hb0, hcap]⟩
          have hw1 := hl.handW txn hf hc.2 hk hq hw
          right
          apply (hj.hits hw1 _).resumeR (hw1.hits _)
          rw [(hits_rq _ _).2]
          simp [St.giveTo, St.handW, hr]
        · rw [if_neg hw]; exact Or.inl rfl

theorem J.run' {s : St} (h : WF s none) (t : TK s none) (j : J s none) (l : Last s) (k : Nat) :
    (s.run k).ub = true ∨ J (s.run k) none := by
  unfold St.run
  split
  · exact Or.inr j
  · rename_i i hk
    have hin : Tok.r i ∈ s.posted := List.mem_of_getElem? hk
    have hm := nodup_eraseIdx_mem h.ndP hk
    have hs := h.rpost i hin
    have ht : ({ s with posted := s.posted.eraseIdx k } : St).taken = s.taken := rfl
    have hj : J { s with posted := s.posted.eraseIdx k } (some (.r i)) := by
      refine ⟨?_, j.rqb, j.wqb⟩
      constructor
      case fifo1 => rw [ht]; have := j.fifo1; simp only [St.actR] at *; grind
      case fifo0 => rw [ht]; have := j.fifo0; simp only [St.actR] at *; grind
      all_goals (cases j.toJC; simp only [St.actR, St.actW] at *; grind)
    exact hj.resumeR' (h.unpost hk) (l.shr (shr_id rfl rfl rfl rfl))
  · rename_i i hk
    have hin : Tok.w i ∈ s.posted := List.mem_of_getElem? hk
    have hm := nodup_eraseIdx_mem h.ndP hk
    have hs := h.wpost i hin
    have ht : ({ s with posted := s.posted.eraseIdx k } : St).taken = s.taken := rfl
    have hj : J { s with posted := s.posted.eraseIdx k } (some (.w i)) := by
      refine ⟨?_, j.rqb, j.wqb⟩
      constructor
      case fifo1 => rw [ht]; have := j.fifo1; simp only [St.actR] at *; grind
      case fifo0 => rw [ht]; have := j.fifo0; simp only [St.actR] at *; grind
      all_goals (cases j.toJC; simp only [St.actR, St.actW] at *; grind)
    exact hj.resumeW' (h.unpost hk) (t.unpost h hk) (l.shr (shr_id rfl rfl rfl rfl))

theorem J.step' {s : St} (h : WF s none) (t : TK s none) (j : J s none) (l : Last s) (e : Ev)
    (hp : Prompt s [e]) (ho : Spsc s [e]) : (s.step e).ub = true ∨ J (s.step e) none := by
  have hu := j.ub
  cases e with
  | awaitR i c x hs => simp only [St.step, hu, Bool.false_eq_true, if_false]; exact j.awaitR' h t l ho.1 i c x hs
  | awaitW i c x hs => simp only [St.step, hu, Bool.false_eq_true, if_false]; exact j.awaitW' h t l ho.1 i hp.1 c x hs
  | run k => simp only [St.step, hu, Bool.false_eq_true, if_false]; exact j.run' h t l k
  | dropR i => exact Or.inr (j.step_quiet h t (.dropR i) hp ho rfl)
  | dropW i => exact Or.inr (j.step_quiet h t (.dropW i) hp ho rfl)
  | mkR => exact Or.inr (j.step_quiet h t .mkR hp ho rfl)
  | mkW => exact Or.inr (j.step_quiet h t .mkW hp ho rfl)
  | cancelR i => exact Or.inr (j.step_quiet h t (.cancelR i) hp ho rfl)
  | cancelW i => exact Or.inr (j.step_quiet h t (.cancelW i) hp ho rfl)
  | intR i => exact Or.inr (j.step_quiet h t (.intR i) hp ho rfl)
  | intW i => exact Or.inr (j.step_quiet h t (.intW i) hp ho rfl)
  | close => exact Or.inr (j.step_quiet h t .close hp ho rfl)

theorem spsc_inv' (es : List Ev) : ∀ s, WF s none → TK s none → J s none → Last s → Prompt s es → Spsc s es →
    (s.steps es).ub = true ∨ (WF (s.steps es) none ∧ TK (s.steps es) none ∧ J (s.steps es) none) := by
  induction es with
  | nil => intro s h t j _ _ _; exact Or.inr ⟨h, t, j⟩
  | cons e es ih =>
    intro s h t j l hp hs
    rcases j.step' h t l e ⟨hp.1, trivial⟩ ⟨hs.1, trivial⟩ with hj | hj
    · exact Or.inl (steps_ub_mono es _ hj)
    · have hu := hj.ub
      have hw : WF (s.step e) none := by
        rcases h.step e with h1 | h1
        · simp [hu] at h1
        · exact h1
      have hk : TK (s.step e) none := by
        rcases t.step h e with h1 | h1
        · simp [hu] at h1
        · exact h1
      exact ih _ hw hk hj (l.step h e ⟨hs.1, trivial⟩) hp.2 hs.2

theorem spsc_exec' {cap : Nat} {es : List Ev} (hp : Prompt (St.init cap) es)
    (hs : Spsc (St.init cap) es) : (exec cap es).ub = true ∨
    (WF (exec cap es) none ∧ TK (exec cap es) none ∧ J (exec cap es) none) :=
  spsc_inv' es _ (WF.init cap) (TK.init cap) (J.init cap) ⟨by simp [St.init], by simp [St.init]⟩ hp hs

end Cobalt.Chan
