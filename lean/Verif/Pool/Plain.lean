import Verif.Chan.ForLemmas
/-! Helper: a channel nobody closes, with operations nobody cancels: who is suspended and who goes on. -/
namespace Cobalt.Chan

/-- How far an operation is. -/
def St.tstat (s : St) : Tok → Status
  | .r i => (s.R i).status
  | .w i => (s.W i).status

/-- The operation whose end was observed last, if nothing was after it. -/
def lastTok (log : List Obs) : Option Tok :=
  match log.getLast? with
  | some (.doneR i _) => some (.r i)
  | some (.doneW i _) => some (.w i)
  | _ => none

theorem lastTok_r (l : List Obs) (i : Nat) (res : RRes) : lastTok (l ++ [.doneR i res]) = some (.r i) := by
  simp [lastTok]
theorem lastTok_w (l : List Obs) (i : Nat) (res : WRes) : lastTok (l ++ [.doneW i res]) = some (.w i) := by
  simp [lastTok]
theorem lastTok_sr (l : List Obs) (i : Nat) : lastTok (l ++ [.startR i]) = none := by
  simp [lastTok]
theorem lastTok_sw (l : List Obs) (i : Nat) : lastTok (l ++ [.startW i]) = none := by
  simp [lastTok]

/-- The parts that do not change here. -/
structure Same (s s' : St) : Prop where
  cap : s'.cap = s.cap
  closed : s'.closed = s.closed
  nR : s'.nextR = s.nextR
  nW : s'.nextW = s.nextW
  rc : ∀ j, (s'.R j).cancelled = (s.R j).cancelled
  wc : ∀ j, (s'.W j).cancelled = (s.W j).cancelled
  wcl : ∀ j, (s'.W j).closedF = (s.W j).closedF

theorem Same.refl (s : St) : Same s s := ⟨rfl, rfl, rfl, rfl, fun _ => rfl, fun _ => rfl, fun _ => rfl⟩

theorem Same.trans {s t u : St} (a : Same s t) (b : Same t u) : Same s u :=
  ⟨b.cap.trans a.cap, b.closed.trans a.closed, b.nR.trans a.nR, b.nW.trans a.nW,
    fun j => (b.rc j).trans (a.rc j), fun j => (b.wc j).trans (a.wc j), fun j => (b.wcl j).trans (a.wcl j)⟩

/-- Operation `t` ends. -/
structure Res (s s' : St) (t : Tok) : Prop extends Same s s' where
  st : ∀ u, s'.tstat u = if u = t then .done else s.tstat u
  last : lastTok s'.log = some t
  log : ∃ o, s'.log = s.log ++ [o] ∧ ∀ i, t = .w i → (s.W i).closedF = false → (s.W i).cancelled = false →
    o = .doneW i .ok

theorem wakeWriter_same (s : St) : Same s s.wakeWriter ∧ (∀ u, s.wakeWriter.tstat u = s.tstat u) ∧
    s.wakeWriter.log = s.log := by
  unfold St.wakeWriter
  split
  · exact ⟨.refl _, fun _ => rfl, rfl⟩
  · rename_i w rest hq
    dsimp only
    split
    · split
      · refine ⟨⟨rfl, rfl, rfl, rfl, fun _ => rfl, fun j => ?_, fun j => ?_⟩, fun u => ?_, rfl⟩
        · simp only [upd_apply]; split <;> simp_all
        · simp only [upd_apply]; split <;> simp_all
        · cases u with
          | r j => rfl
          | w j => simp only [St.tstat, upd_apply]; split <;> simp_all
      · exact ⟨⟨rfl, rfl, rfl, rfl, fun _ => rfl, fun _ => rfl, fun _ => rfl⟩, fun u => by cases u <;> rfl, rfl⟩
    · exact ⟨⟨rfl, rfl, rfl, rfl, fun _ => rfl, fun _ => rfl, fun _ => rfl⟩, fun u => by cases u <;> rfl, rfl⟩

theorem wakeReader_same (s : St) : Same s s.wakeReader ∧ (∀ u, s.wakeReader.tstat u = s.tstat u) ∧
    s.wakeReader.log = s.log := by
  unfold St.wakeReader
  split
  · exact ⟨.refl _, fun _ => rfl, rfl⟩
  · rename_i w rest hq
    dsimp only
    split
    · split
      · refine ⟨⟨rfl, rfl, rfl, rfl, fun j => ?_, fun _ => rfl, fun _ => rfl⟩, fun u => ?_, rfl⟩
        · simp only [upd_apply]; split <;> simp_all
        · cases u with
          | w j => rfl
          | r j => simp only [St.tstat, upd_apply]; split <;> simp_all
      · exact ⟨⟨rfl, rfl, rfl, rfl, fun _ => rfl, fun _ => rfl, fun _ => rfl⟩, fun u => by cases u <;> rfl, rfl⟩
    · exact ⟨⟨rfl, rfl, rfl, rfl, fun _ => rfl, fun _ => rfl, fun _ => rfl⟩, fun u => by cases u <;> rfl, rfl⟩

theorem endR_res (s : St) (i : Nat) (res : RRes) (b : List Nat) : Res s { s.endR i res with buf := b } (.r i) := by
  refine ⟨⟨rfl, rfl, rfl, rfl, fun j => ?_, fun _ => rfl, fun _ => rfl⟩, fun u => ?_, lastTok_r _ _ _, ⟨_, rfl, fun _ h => by cases h⟩⟩
  · simp only [St.endR, upd_apply]; split <;> simp_all
  · cases u with
    | w j => simp [St.tstat, St.endR]
    | r j => simp only [St.tstat, St.endR, upd_apply]; split <;> simp_all

theorem endW_res (s : St) (i : Nat) (res : WRes) (b : List Nat) (a : Bool)
    (hr : (s.W i).closedF = false → (s.W i).cancelled = false → res = .ok) :
    Res s { s.endW i res with buf := b, asserted := a } (.w i) := by
  refine ⟨⟨rfl, rfl, rfl, rfl, fun _ => rfl, fun j => ?_, fun j => ?_⟩, fun u => ?_, lastTok_w _ _ _,
    ⟨_, rfl, fun k hk h1 h2 => by cases hk; rw [hr h1 h2]⟩⟩
  · simp only [St.endW, upd_apply]; split <;> simp_all
  · simp only [St.endW, upd_apply]; split <;> simp_all
  · cases u with
    | r j => simp [St.tstat, St.endW]
    | w j => simp only [St.tstat, St.endW, upd_apply]; split <;> simp_all

theorem Res.wakeW {s s' : St} {t : Tok} (h : Res s s' t) : Res s s'.wakeWriter t := by
  obtain ⟨a, b, c⟩ := wakeWriter_same s'
  exact ⟨h.toSame.trans a, fun u => (b u).trans (h.st u), by rw [c]; exact h.last, by rw [c]; exact h.log⟩

theorem Res.wakeR {s s' : St} {t : Tok} (h : Res s s' t) : Res s s'.wakeReader t := by
  obtain ⟨a, b, c⟩ := wakeReader_same s'
  exact ⟨h.toSame.trans a, fun u => (b u).trans (h.st u), by rw [c]; exact h.last, by rw [c]; exact h.log⟩

theorem resumeR_res (s : St) (i : Nat) : (s.resumeR i).ub = true ∨ Res s (s.resumeR i) (.r i) := by
  unfold St.resumeR
  split
  · exact .inr (endR_res s i _ s.buf)
  · split
    · exact .inr (endR_res s i _ s.buf)
    · split
      · exact .inl rfl
      · exact .inr (endR_res s i _ s.buf).wakeW
      · exact .inr (endR_res s i _ _).wakeW
      · exact .inr (endR_res s i _ _).wakeW

theorem resumeW_res (s : St) (i : Nat) : Res s (s.resumeW i) (.w i) := by
  unfold St.resumeW
  split
  · rename_i h; exact endW_res s i _ s.buf s.asserted (fun h' => by rw [h] at h'; cases h')
  · split
    · rename_i h; exact endW_res s i _ s.buf s.asserted (fun _ h' => by rw [h] at h'; cases h')
    · split
      · exact (endW_res s i _ s.buf s.asserted fun _ _ => rfl).wakeR
      · exact (endW_res s i _ _ _ fun _ _ => rfl).wakeR

/-- `a`: the operation that is awaited now. The suspended operations and `a` are suspended afterwards, except the one
that has ended, if one has. -/
structure Tr (s s' : St) (a : Option Tok) : Prop extends Same s s' where
  susp : ∀ t, s'.tstat t = .susp ↔ (s.tstat t = .susp ∨ a = some t) ∧ lastTok s'.log ≠ some t
  was : ∀ t, lastTok s'.log = some t → s.tstat t = .susp ∨ a = some t
  log : ∀ o ∈ s.log, o ∈ s'.log
  ok : ∀ i, lastTok s'.log = some (.w i) → (s.W i).closedF = false → (s.W i).cancelled = false →
    Obs.doneW i .ok ∈ s'.log

theorem Tr.of_res {s s0 s' : St} {a : Option Tok} {t : Tok} (h : Res s0 s' t) (h0 : Same s s0)
    (hs : ∀ u, u ≠ t → (s0.tstat u = .susp ↔ s.tstat u = .susp ∨ a = some u))
    (ht : s.tstat t = .susp ∨ a = some t) (hl : ∀ o ∈ s.log, o ∈ s0.log := by
      first | exact fun _ h => h | exact fun _ h => List.mem_append_left _ h) : Tr s s' a := by
  obtain ⟨o, ho, hok⟩ := h.log
  refine ⟨h0.trans h.toSame, fun u => ?_, fun u hu => ?_, fun x hx => by rw [ho]; simp [hl x hx], fun i hi h1 h2 => ?_⟩
  · rw [h.st u, h.last]
    by_cases e : u = t
    · simp [e]
    · rw [if_neg e, hs u e]
      have : ¬ t = u := fun h => e h.symm
      simp [this]
  · rw [h.last] at hu
    cases hu
    exact ht
  · rw [h.last] at hi
    rw [ho, hok i (by simpa using hi) ((h0.wcl i).trans h1) ((h0.wc i).trans h2)]
    simp

theorem run_tr {s : St} (h : WF s none) (hu : s.ub = false) {k : Nat} (hk : k < s.posted.length) :
    (s.step (.run k)).ub = true ∨ Tr s (s.step (.run k)) none := by
  rw [show s.step (.run k) = s.run k by simp [St.step, hu]]
  unfold St.run
  have hm : s.posted[k] ∈ s.posted := List.getElem_mem hk
  rw [List.getElem?_eq_getElem hk]
  cases ht : s.posted[k] with
  | r i =>
    rw [ht] at hm
    dsimp only
    rcases resumeR_res { s with posted := s.posted.eraseIdx k } i with h1 | h1
    · exact .inl h1
    · refine .inr (.of_res (t := .r i) h1 ⟨rfl, rfl, rfl, rfl, fun _ => rfl, fun _ => rfl, fun _ => rfl⟩
        (fun u _ => ?_) (.inl (h.rpost i hm).1))
      cases u <;> simp [St.tstat]
  | w i =>
    rw [ht] at hm
    dsimp only
    refine .inr (.of_res (t := .w i) (resumeW_res { s with posted := s.posted.eraseIdx k } i)
      ⟨rfl, rfl, rfl, rfl, fun _ => rfl, fun _ => rfl, fun _ => rfl⟩ (fun u _ => ?_) (.inl (h.wpost i hm).1))
    cases u <;> simp [St.tstat]

theorem awaitR_tr {s : St} (h : WF s none) (hu : s.ub = false) {i : Nat} (hf : (s.R i).status = .fresh) (conn : Bool) :
    (s.step (.awaitR i conn false [])).ub = true ∨ Tr s (s.step (.awaitR i conn false [])) (some (.r i)) := by
  simp only [St.step, hu, Bool.false_eq_true, if_false]
  rw [awaitR_eq, if_neg (by simp [hf])]
  dsimp only
  split
  · rcases resumeR_res { s with log := s.log ++ [Obs.startR i] } i with h1 | h1
    · exact .inl h1
    · refine .inr (.of_res h1 ⟨rfl, rfl, rfl, rfl, fun _ => rfl, fun _ => rfl, fun _ => rfl⟩ (fun u hu => ?_) (.inr rfl))
      have : ¬ Tok.r i = u := fun h => hu h.symm
      cases u <;> simp_all [St.tstat]
  · split
    · refine .inr ⟨⟨rfl, rfl, rfl, rfl, fun j => ?_, fun _ => rfl, fun _ => rfl⟩, fun u => ?_, fun u hu => ?_,
        fun _ h => List.mem_append_left _ h, fun j hj => ?_⟩
      · simp only [St.queueR, upd_apply]; split <;> simp_all
      · show _ ↔ _ ∧ lastTok (s.log ++ [Obs.startR i]) ≠ some u
        rw [lastTok_sr]
        cases u with
        | w j => simp [St.tstat, St.queueR]
        | r j =>
          simp only [St.tstat, St.queueR, upd_apply]
          by_cases e : j = i
          · simp [e]
          · have : ¬ i = j := fun h => e h.symm
            simp [e, this]
      · change lastTok (s.log ++ [Obs.startR i]) = some u at hu
        rw [lastTok_sr] at hu; cases hu
      · change lastTok (s.log ++ [Obs.startR i]) = _ at hj
        rw [lastTok_sr] at hj; cases hj
    · rename_i w rest hq
      split
      · rename_i hw
        simp only [ite_self, List.foldl_nil]
        have hws := (h.wwait w hw).1
        refine .inr (.of_res (t := .w w) (resumeW_res _ w) ⟨rfl, rfl, rfl, rfl, fun j => ?_, fun j => ?_, fun j => ?_⟩ (fun u hu => ?_) (.inl hws))
        · simp only [St.takeFrom, St.handR, upd_apply]; split <;> simp_all
        · simp only [St.takeFrom, St.handR, upd_apply]; split <;> simp_all
        · simp only [St.takeFrom, St.handR, upd_apply]; split <;> simp_all
        · cases u with
          | w j =>
            have : ¬ j = w := fun h => hu (h ▸ rfl)
            simp [St.tstat, St.takeFrom, St.handR, upd_apply, this]
          | r j =>
            by_cases e : j = i
            · simp [St.tstat, St.takeFrom, St.handR, upd_apply, e]
            · have : ¬ i = j := fun h => e h.symm
              simp [St.tstat, St.takeFrom, St.handR, upd_apply, e, this]
      · exact .inl rfl

theorem awaitW_tr {s : St} (h : WF s none) (hu : s.ub = false) {i : Nat} (hf : (s.W i).status = .fresh) (conn : Bool) :
    (s.step (.awaitW i conn false [])).ub = true ∨ Tr s (s.step (.awaitW i conn false [])) (some (.w i)) := by
  simp only [St.step, hu, Bool.false_eq_true, if_false]
  rw [awaitW_eq, if_neg (by simp [hf])]
  dsimp only
  split
  · refine .inr (.of_res (resumeW_res { s with log := s.log ++ [Obs.startW i] } i)
      ⟨rfl, rfl, rfl, rfl, fun _ => rfl, fun _ => rfl, fun _ => rfl⟩ (fun u hu => ?_) (.inr rfl))
    have : ¬ Tok.w i = u := fun h => hu h.symm
    cases u <;> simp_all [St.tstat]
  · split
    · refine .inr ⟨⟨rfl, rfl, rfl, rfl, fun _ => rfl, fun j => ?_, fun j => ?_⟩, fun u => ?_, fun u hu => ?_,
        fun _ h => List.mem_append_left _ h, fun j hj => ?_⟩
      · simp only [St.queueW, upd_apply]; split <;> simp_all
      · simp only [St.queueW, upd_apply]; split <;> simp_all
      · show _ ↔ _ ∧ lastTok (s.log ++ [Obs.startW i]) ≠ some u
        rw [lastTok_sw]
        cases u with
        | r j => simp [St.tstat, St.queueW]
        | w j =>
          simp only [St.tstat, St.queueW, upd_apply]
          by_cases e : j = i
          · simp [e]
          · have : ¬ i = j := fun h => e h.symm
            simp [e, this]
      · change lastTok (s.log ++ [Obs.startW i]) = some u at hu
        rw [lastTok_sw] at hu; cases hu
      · change lastTok (s.log ++ [Obs.startW i]) = _ at hj
        rw [lastTok_sw] at hj; cases hj
    · rename_i w rest hq
      split
      · rename_i hw
        simp only [ite_self, List.foldl_nil]
        have hws := (h.rwait w hw).1
        rcases resumeR_res ((({ s with log := s.log ++ [Obs.startW i] } : St).giveTo i w false).handW i w) w with h1 | h1
        · exact .inl h1
        · refine .inr (.of_res (t := .r w) h1 ⟨rfl, rfl, rfl, rfl, fun j => ?_, fun j => ?_, fun j => ?_⟩ (fun u hu => ?_)
            (.inl hws))
          · simp only [St.giveTo, St.handW, upd_apply]; split <;> simp_all
          · simp only [St.giveTo, St.handW, upd_apply]; split <;> simp_all
          · simp only [St.giveTo, St.handW, upd_apply]; split <;> simp_all
          · cases u with
            | r j =>
              have : ¬ j = w := fun h => hu (h ▸ rfl)
              simp [St.tstat, St.giveTo, St.handW, upd_apply, this]
            | w j =>
              by_cases e : j = i
              · simp [St.tstat, St.giveTo, St.handW, upd_apply, e]
              · have : ¬ i = j := fun h => e h.symm
                simp [St.tstat, St.giveTo, St.handW, upd_apply, e, this]
      · exact .inl rfl

/-- Nobody has closed the channel or cancelled an operation. -/
structure Pl (s : St) : Prop where
  wf : WF s none
  ub : s.ub = false
  op : s.closed = false
  rc : ∀ i, (s.R i).cancelled = false
  wc : ∀ i, (s.W i).cancelled = false
  wcl : ∀ i, (s.W i).closedF = false

theorem Pl.init (cap : Nat) : Pl (St.init cap) :=
  ⟨WF.init cap, rfl, rfl, fun _ => rfl, fun _ => rfl, fun _ => rfl⟩

theorem Pl.noStale {s : St} (h : Pl s) : s.noStale := by
  refine ⟨fun i hi => ?_, fun i hi => ?_⟩
  · rcases (h.wf.rlink i hi).2 with h1 | h1
    · exact h1.1
    · have := h1.2.2; rw [h.rc i] at this; cases this
  · rcases (h.wf.wlink i hi).2.2 with h1 | h1
    · exact h1.1
    · have := h1.2.2; rw [h.wc i] at this; cases this

theorem Pl.same {s s' : St} (h : Pl s) (w : WF s' none) (hu : s'.ub = false) (m : Same s s') : Pl s' :=
  ⟨w, hu, m.closed.trans h.op, fun i => (m.rc i).trans (h.rc i), fun i => (m.wc i).trans (h.wc i),
    fun i => (m.wcl i).trans (h.wcl i)⟩

theorem Pl.mkR {s : St} (h : Pl s) : Pl (s.step .mkR) := by
  have hu : (s.step .mkR).ub = false := by simp [St.step, h.ub]
  have hw : WF (s.step .mkR) none := by
    rcases h.wf.step .mkR with h1 | h1
    · rw [hu] at h1; cases h1
    · exact h1
  refine ⟨hw, hu, ?_, fun i => ?_, fun i => ?_, fun i => ?_⟩
  · simp [St.step, h.ub, h.op]
  · simp only [St.step, h.ub, Bool.false_eq_true, if_false, upd_apply]
    split
    · rfl
    · exact h.rc i
  · simp [St.step, h.ub, h.wc]
  · simp [St.step, h.ub, h.wcl]

theorem Pl.mkW {s : St} (h : Pl s) : Pl (s.step .mkW) := by
  have hu : (s.step .mkW).ub = false := by simp [St.step, h.ub]
  have hw : WF (s.step .mkW) none := by
    rcases h.wf.step .mkW with h1 | h1
    · rw [hu] at h1; cases h1
    · exact h1
  refine ⟨hw, hu, ?_, fun i => ?_, fun i => ?_, fun i => ?_⟩
  · simp [St.step, h.ub, h.op]
  · simp [St.step, h.ub, h.rc]
  · simp only [St.step, h.ub, Bool.false_eq_true, if_false, upd_apply]
    split
    · rfl
    · exact h.wc i
  · simp only [St.step, h.ub, Bool.false_eq_true, if_false, upd_apply]
    split
    · exact h.op
    · exact h.wcl i

theorem Pl.run {s : St} (h : Pl s) {k : Nat} (hk : k < s.posted.length) :
    (s.step (.run k)).ub = true ∨ (Pl (s.step (.run k)) ∧ Tr s (s.step (.run k)) none) := by
  rcases run_tr h.wf h.ub hk with h1 | h1
  · exact .inl h1
  · rcases h.wf.step (.run k) with h2 | h2
    · exact .inl h2
    · cases hb : (s.step (.run k)).ub with
      | true => exact .inl rfl
      | false => exact .inr ⟨h.same h2 hb h1.toSame, h1⟩

theorem Pl.fr {s : St} (h : Pl s) : ((s.step .mkR).R s.nextR).status = .fresh := by
  simp [St.step, h.ub, upd_apply]

theorem Pl.fw {s : St} (h : Pl s) : ((s.step .mkW).W s.nextW).status = .fresh := by
  simp [St.step, h.ub, upd_apply]

/-- A new read is made and awaited. -/
theorem Pl.read {s : St} (h : Pl s) (conn : Bool) :
    (s.steps [.mkR, .awaitR s.nextR conn false []]).ub = true ∨
    (Pl (s.steps [.mkR, .awaitR s.nextR conn false []]) ∧
     Tr (s.step .mkR) (s.steps [.mkR, .awaitR s.nextR conn false []]) (some (.r s.nextR))) := by
  rw [show s.steps [.mkR, .awaitR s.nextR conn false []] = (s.step .mkR).step (.awaitR s.nextR conn false []) from rfl]
  rcases awaitR_tr h.mkR.wf h.mkR.ub h.fr conn with h1 | h1
  · exact .inl h1
  · rcases h.mkR.wf.step (.awaitR s.nextR conn false []) with h2 | h2
    · exact .inl h2
    · cases hb : ((s.step .mkR).step (.awaitR s.nextR conn false [])).ub with
      | true => exact .inl rfl
      | false => exact .inr ⟨h.mkR.same h2 hb h1.toSame, h1⟩

/-- A new write is made and awaited. -/
theorem Pl.write {s : St} (h : Pl s) (conn : Bool) :
    (s.steps [.mkW, .awaitW s.nextW conn false []]).ub = true ∨
    (Pl (s.steps [.mkW, .awaitW s.nextW conn false []]) ∧
     Tr (s.step .mkW) (s.steps [.mkW, .awaitW s.nextW conn false []]) (some (.w s.nextW))) := by
  rw [show s.steps [.mkW, .awaitW s.nextW conn false []] = (s.step .mkW).step (.awaitW s.nextW conn false []) from rfl]
  rcases awaitW_tr h.mkW.wf h.mkW.ub h.fw conn with h1 | h1
  · exact .inl h1
  · rcases h.mkW.wf.step (.awaitW s.nextW conn false []) with h2 | h2
    · exact .inl h2
    · cases hb : ((s.step .mkW).step (.awaitW s.nextW conn false [])).ub with
      | true => exact .inl rfl
      | false => exact .inr ⟨h.mkW.same h2 hb h1.toSame, h1⟩

theorem mkR_stat {s : St} (h : Pl s) (t : Tok) : (s.step .mkR).tstat t = .susp ↔ s.tstat t = .susp := by
  cases t with
  | w j => simp [St.tstat, St.step, h.ub]
  | r j =>
    simp only [St.tstat, St.step, h.ub, Bool.false_eq_true, if_false, upd_apply]
    split
    · subst_vars; simp [h.wf.rnew _ (Nat.le_refl _)]
    · rfl

theorem mkW_stat {s : St} (h : Pl s) (t : Tok) : (s.step .mkW).tstat t = .susp ↔ s.tstat t = .susp := by
  cases t with
  | r j => simp [St.tstat, St.step, h.ub]
  | w j =>
    simp only [St.tstat, St.step, h.ub, Bool.false_eq_true, if_false, upd_apply]
    split
    · subst_vars; simp [h.wf.wnew _ (Nat.le_refl _)]
    · rfl

end Cobalt.Chan
