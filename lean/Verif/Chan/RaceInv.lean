import Verif.Chan.RaceLemmas
/-! Helper: the invariant of a race of channel operations none of which finds the other side waiting. -/
namespace Cobalt.Chan

/-- The await of `t` has ended. -/
def Over (s : St) (t : Tok) : Prop := s.stat t = .done ∨ s.stat t = .gone

theorem Near.over {s s' : St} {t : Tok} (h : Near s s' t) (ho : Over s t) : Over s' t := by
  unfold Over at *; rwa [h.stat]

theorem Over.int {s : St} {t : Tok} (h : Over s t) (x : Tok) : Over (s.int x) t := by
  by_cases hx : t = x
  · subst hx
    cases t with
    | r j =>
      simp only [St.int, intR_eq]
      split
      · exact h
      · split <;> (simp only [Over, St.stat, St.endR] at *; grind)
    | w j =>
      simp only [St.int, intW_eq]
      split
      · exact h
      · split <;> (simp only [Over, St.stat, St.endW] at *; grind)
  · exact (Near.int s hx).over h

theorem Over.hits (ts : List Tok) {t : Tok} : ∀ {s : St}, Over s t → Over (ts.foldl St.int s) t := by
  induction ts with
  | nil => exact fun h => h
  | cons x ts ih => exact fun h => ih (h.int x)

theorem Over.idle {s : St} (hw : WF s none) {t : Tok} (h : Over s t) : s.awaited t = false := by
  cases hx : s.awaited t with
  | false => rfl
  | true =>
    cases t with
    | r i => have := (hw.rwait i hx).1; simp only [Over, St.stat] at h; grind
    | w i => have := (hw.wwait i hx).1; simp only [Over, St.stat] at h; grind

/-- What has ended has ended. -/
theorem Over.step {s : St} (hw : WF s none) {t : Tok} (h : Over s t) (e : Ev) : Over (s.step e) t := by
  have hx : s.stat t ≠ .absent := by intro h'; simp only [Over] at h; grind
  by_cases hr : s.runs e = some t
  · cases e with
    | run k =>
      have hm := List.mem_of_getElem? hr
      cases t with
      | r i => have := (hw.rpost i hm).1; simp only [Over, St.stat] at h; grind
      | w i => have := (hw.wpost i hm).1; simp only [Over, St.stat] at h; grind
    | _ => cases hr
  · by_cases hn : t ∈ e.names ∨ s.finds e = some t
    · have hid := h.idle hw
      unfold St.step
      split
      · exact h
      · cases e with
        | awaitR j c x l =>
          dsimp only
          rw [awaitR_eq]
          split
          · exact h
          · rename_i hfr
            simp only [ne_eq, Decidable.not_not] at hfr
            have hj : t ≠ .r j := by rintro rfl; simp only [Over, St.stat] at h; grind
            have h0 : Over { s with log := s.log ++ [Obs.startR j] } t := by cases t <;> exact h
            dsimp only
            split
            · exact (Near.resumeR _ hj).over h0
            · split
              · refine Near.over ?_ h0
                cases t <;> (simp only [Near, St.queueR] at *; grind)
              · rename_i w rest hq
                split
                · rename_i hwt
                  have hne : t ≠ .w w := by rintro rfl; simp only [St.awaited] at hid; rw [hid] at hwt; cases hwt
                  refine (Near.resumeW _ hne).over (Over.hits _ (Near.over ?_ h0))
                  cases t <;> (simp only [Near, St.takeFrom, St.handR] at *; grind)
                · cases t <;> exact h0
        | awaitW j c x l =>
          dsimp only
          rw [awaitW_eq]
          split
          · exact h
          · rename_i hfr
            simp only [ne_eq, Decidable.not_not] at hfr
            have hj : t ≠ .w j := by rintro rfl; simp only [Over, St.stat] at h; grind
            have h0 : Over { s with log := s.log ++ [Obs.startW j] } t := by cases t <;> exact h
            dsimp only
            split
            · exact (Near.resumeW _ hj).over h0
            · split
              · refine Near.over ?_ h0
                cases t <;> (simp only [Near, St.queueW] at *; grind)
              · rename_i w rest hq
                split
                · rename_i hwt
                  have hne : t ≠ .r w := by rintro rfl; simp only [St.awaited] at hid; rw [hid] at hwt; cases hwt
                  refine (Near.resumeR _ hne).over (Over.hits _ (Near.over ?_ h0))
                  cases t <;> (simp only [Near, St.giveTo, St.handW] at *; grind)
                · cases t <;> exact h0
        | intR i => exact h.int (.r i)
        | intW i => exact h.int (.w i)
        | cancelR i =>
          dsimp only
          unfold St.cancelR
          split
          · cases t <;> (simp only [Over, St.stat] at *; grind)
          · exact h
        | cancelW i =>
          dsimp only
          unfold St.cancelW
          split
          · cases t <;> (simp only [Over, St.stat] at *; grind)
          · exact h
        | dropR i =>
          dsimp only
          unfold St.dropR
          split
          · cases t <;> (simp only [Over, St.stat] at *; grind)
          · exact h
        | dropW i =>
          dsimp only
          unfold St.dropW
          split
          · cases t <;> (simp only [Over, St.stat] at *; grind)
          · exact h
        | _ => simp [Ev.names, St.finds] at hn
    · simp only [not_or] at hn
      exact (near_step hw hn.1 hn.2 hr hx).over h

/-- The invariants of a channel. -/
def Sane (s : St) : Prop := s.ub = true ∨ (WF s none ∧ TK s none)

theorem Sane.exec (cap : Nat) (es : List Ev) : Sane (exec cap es) := exec_inv cap es

theorem Sane.step {s : St} (h : Sane s) (e : Ev) : Sane (s.step e) := by
  rcases h with h | ⟨h, t⟩
  · left; rw [step_ub h]; exact h
  · rcases h.step e with h1 | h1
    · exact Or.inl h1
    · rcases t.step h e with h2 | h2
      · exact Or.inl h2
      · exact Or.inr ⟨h1, h2⟩

theorem step_defined {s : St} {e : Ev} (h : (s.step e).ub = false) : s.ub = false := by
  cases hx : s.ub with
  | false => rfl
  | true => rw [step_ub hx, hx] at h; cases h

theorem Sane.wf {s : St} (h : Sane s) (hu : s.ub = false) : WF s none ∧ TK s none := by
  rcases h with h | h
  · rw [hu] at h; cases h
  · exact h

theorem Fine.int' {s : St} {t : Tok} (h : Fine s t) (hu : s.ub = false) :
    (s.step t.int).stat t = .done ∨ Fine (s.step t.int) t := by
  cases t with
  | r i =>
    simp only [Tok.int, St.step, hu, Bool.false_eq_true, if_false, intR_eq]
    split
    · exact Or.inr h
    · split
      · left; simp [St.stat, St.endR, upd_apply]
      · right; simp only [Fine] at *; grind
  | w i =>
    simp only [Tok.int, St.step, hu, Bool.false_eq_true, if_false, intW_eq]
    split
    · exact Or.inr h
    · split
      · left; simp [St.stat, St.endW, upd_apply]
      · right; simp only [Fine] at *; grind

namespace Race

def fine (s : Race) (κ : Kid) : Prop := Fine (s.ch κ.ch) κ.op
def dead (s : Race) (κ : Kid) : Prop := Dead (s.ch κ.ch) κ.op
def ovr (s : Race) (κ : Kid) : Prop := Over (s.ch κ.ch) κ.op

/-- Only channels have moved, and perhaps the winner was found. -/
structure Moves (s s' : Race) : Prop where
  kids : s'.kids = s.kids
  next : s'.next = s.next
  going : s'.going = s.going
  gap : s'.gap = s.gap
  act : s'.act = s.act
  threw : s'.threw = s.threw
  index : ∀ i, s.index = some i → s'.index = some i
  sane : (∀ c, Sane (s.ch c)) → ∀ c, Sane (s'.ch c)
  defined : s'.defined → s.defined
  dead : (∀ c, Sane (s.ch c)) → s'.defined → ∀ κ, s.dead κ → s'.dead κ
  ovr : (∀ c, Sane (s.ch c)) → s'.defined → ∀ κ, s.ovr κ → s'.ovr κ

theorem Moves.refl (s : Race) : Moves s s := ⟨rfl, rfl, rfl, rfl, rfl, rfl, fun _ h => h, fun h => h, fun h => h,
  fun _ _ _ h => h, fun _ _ _ h => h⟩

theorem Moves.trans {s s' s'' : Race} (h : Moves s s') (h' : Moves s' s'') : Moves s s'' where
  kids := h'.kids.trans h.kids
  next := h'.next.trans h.next
  going := h'.going.trans h.going
  gap := h'.gap.trans h.gap
  act := h'.act.trans h.act
  threw := h'.threw.trans h.threw
  index i hi := h'.index i (h.index i hi)
  sane hs := h'.sane (h.sane hs)
  defined hd := h.defined (h'.defined hd)
  dead hs hd κ hκ := h'.dead (h.sane hs) hd κ (h.dead hs (h'.defined hd) κ hκ)
  ovr hs hd κ hκ := h'.ovr (h.sane hs) hd κ (h.ovr hs (h'.defined hd) κ hκ)

theorem Moves.started {s s' : Race} (h : Moves s s') : s'.started = s.started := by
  unfold Race.started; rw [h.kids, h.next]

theorem Moves.on (s : Race) (c : Nat) (e : Ev) : Moves s (s.on c e) where
  kids := rfl
  next := rfl
  going := rfl
  gap := rfl
  act := rfl
  threw := rfl
  index _ h := h
  sane h c' := by
    simp only [Race.on, upd_apply]
    split
    · exact (h c).step e
    · exact h c'
  defined h c' := by
    have := h c'
    simp only [Race.on, upd_apply] at this
    split at this
    · subst c'; exact step_defined this
    · exact this
  dead hs hd κ h := by
    simp only [Race.dead, Race.on, upd_apply] at *
    split
    · rename_i hc
      have hu := hd c
      simp only [upd_apply, if_true] at hu
      rw [hc] at h
      exact h.step ((hs c).wf (step_defined hu)).1 e
    · exact h
  ovr hs hd κ h := by
    simp only [Race.ovr, Race.on, upd_apply] at *
    split
    · rename_i hc
      have hu := hd c
      simp only [upd_apply, if_true] at hu
      rw [hc] at h
      exact h.step ((hs c).wf (step_defined hu)).1 e
    · exact h

theorem Moves.fold {f : Race → Kid → Race} (hf : ∀ s κ, Moves s (f s κ)) : ∀ (l : List Kid) (s : Race),
    Moves s (l.foldl f s)
  | [], s => Moves.refl s
  | κ :: l, s => (hf s κ).trans (Moves.fold hf l _)

theorem Moves.hit (s : Race) (κ : Kid) : Moves s (s.hit κ) := by
  unfold Race.hit
  split
  · exact Moves.refl s
  · exact (Moves.on s _ _).trans (Moves.on _ _ _)

theorem Moves.cancelAll (s : Race) : Moves s s.cancelAll := Moves.fold Moves.hit _ _

theorem Moves.setIndex (s : Race) (k : Nat) : Moves s { s with index := s.index <|> some k } where
  kids := rfl
  next := rfl
  going := rfl
  gap := rfl
  act := rfl
  threw := rfl
  index _ h := by simp [h]
  sane h := h
  defined h := h
  dead _ _ _ h := h
  ovr _ _ _ h := h

theorem Moves.settle (s₀ s : Race) : Moves s (Race.settle s₀ s) := by
  unfold Race.settle
  split
  · exact Moves.refl s
  · exact (Moves.setIndex s _).trans (Moves.cancelAll _)

/-- A step on a channel leaves alone the branches it is not about. -/
theorem on_near {s : Race} (hs : ∀ c, Sane (s.ch c)) {c : Nat} {e : Ev} (hd : (s.on c e).defined) {κ : Kid}
    (hn : κ.ch = c → κ.op ∉ e.names) (hf : κ.ch = c → (s.ch c).finds e ≠ some κ.op)
    (hr : κ.ch = c → (s.ch c).runs e ≠ some κ.op) (hx : s.stat κ ≠ .absent) :
    Near (s.ch κ.ch) ((s.on c e).ch κ.ch) κ.op := by
  simp only [Race.on, upd_apply]
  split
  · rename_i hc
    have hu := hd c
    simp only [Race.on, upd_apply, if_true] at hu
    rw [hc]
    rw [Race.stat, hc] at hx
    exact near_step ((hs c).wf (step_defined hu)).1 (hn hc) (hf hc) (hr hc) hx
  · exact Near.refl _ _

theorem finds_int (s : St) (t : Tok) : s.finds t.int = none := by cases t <;> rfl
theorem finds_cancel (s : St) (t : Tok) : s.finds t.cancel = none := by cases t <;> rfl
theorem finds_drop (s : St) (t : Tok) : s.finds t.drop = none := by cases t <;> rfl
theorem runs_int (s : St) (t : Tok) : s.runs t.int = none := by cases t <;> rfl
theorem runs_cancel (s : St) (t : Tok) : s.runs t.cancel = none := by cases t <;> rfl
theorem runs_drop (s : St) (t : Tok) : s.runs t.drop = none := by cases t <;> rfl
theorem runs_await (s : St) (t : Tok) : s.runs t.await = none := by cases t <;> rfl
theorem names_int (t : Tok) : t.int.names = [t] := by cases t <;> rfl
theorem names_cancel (t : Tok) : t.cancel.names = [t] := by cases t <;> rfl
theorem names_drop (t : Tok) : t.drop.names = [t] := by cases t <;> rfl
theorem names_await (t : Tok) : t.await.names = [t] := by cases t <;> rfl

def near (s s' : Race) (κ : Kid) : Prop := Near (s.ch κ.ch) (s'.ch κ.ch) κ.op

theorem near.trans {s s' s'' : Race} {κ : Kid} (h : near s s' κ) (h' : near s' s'' κ) : near s s'' κ := Near.trans h h'

theorem near.stat {s s' : Race} {κ : Kid} (h : near s s' κ) : s'.stat κ = s.stat κ := Near.stat h

theorem Kid.ne {κ κ' : Kid} (h : κ' ≠ κ) (hc : κ'.ch = κ.ch) : κ'.op ≠ κ.op := by
  intro ho
  apply h
  cases κ; cases κ'
  simp only at *
  rw [hc, ho]

theorem int_near {s : Race} (hs : ∀ c, Sane (s.ch c)) {κ κ' : Kid} (hd : (s.on κ.ch κ.op.int).defined) (hne : κ' ≠ κ)
    (hx : s.stat κ' ≠ .absent) : near s (s.on κ.ch κ.op.int) κ' :=
  on_near hs hd (fun h => by rw [names_int, List.mem_singleton]; exact Kid.ne hne h)
    (fun _ => by rw [finds_int]; simp) (fun _ => by rw [runs_int]; simp) hx

theorem cancel_near {s : Race} (hs : ∀ c, Sane (s.ch c)) {κ κ' : Kid} (hd : (s.on κ.ch κ.op.cancel).defined)
    (hne : κ' ≠ κ) (hx : s.stat κ' ≠ .absent) : near s (s.on κ.ch κ.op.cancel) κ' :=
  on_near hs hd (fun h => by rw [names_cancel, List.mem_singleton]; exact Kid.ne hne h)
    (fun _ => by rw [finds_cancel]; simp) (fun _ => by rw [runs_cancel]; simp) hx

theorem hit_near {s : Race} (hs : ∀ c, Sane (s.ch c)) {κ κ' : Kid} (hd : (s.hit κ).defined) (hne : κ' ≠ κ)
    (hx : s.stat κ' ≠ .absent) : near s (s.hit κ) κ' := by
  unfold Race.hit at *
  split at hd
  · rw [if_pos (by assumption)]; exact Near.refl _ _
  · rw [if_neg (by assumption)]
    have h1 := int_near hs ((Moves.on _ _ _).defined hd) hne hx
    exact h1.trans (cancel_near ((Moves.on s _ _).sane hs) hd hne (by rw [h1.stat]; exact hx))

theorem fine.hit {s : Race} (hs : ∀ c, Sane (s.ch c)) {κ : Kid} (hd : (s.hit κ).defined) (h : s.fine κ) :
    (s.hit κ).dead κ := by
  have h1 : s.stat κ = .susp := Fine.stat h
  unfold Race.hit at *
  rw [if_neg (by simp [h1])] at hd
  rw [if_neg (by simp [h1])]
  have hd' := (Moves.on _ _ _).defined hd
  refine (Moves.on (s.on κ.ch κ.op.int) _ _).dead ((Moves.on s _ _).sane hs) hd κ ?_
  have hu := hd' κ.ch
  simp only [Race.on, upd_apply, if_true] at hu
  simp only [Race.dead, Race.on, upd_apply, if_true]
  exact Fine.hit h (step_defined hu)

theorem fold_near : ∀ (l : List Kid) {s : Race} {κ : Kid}, (∀ c, Sane (s.ch c)) → (l.foldl Race.hit s).defined → κ ∉ l →
    s.stat κ ≠ .absent → near s (l.foldl Race.hit s) κ
  | [], s, κ, _, _, _, _ => Near.refl _ _
  | x :: l, s, κ, hs, hd, hm, hx => by
    simp only [List.mem_cons, not_or] at hm
    have h1 := hit_near hs ((Moves.fold Moves.hit l _).defined hd) hm.1 hx
    exact h1.trans (fold_near l ((Moves.hit s x).sane hs) hd hm.2 (by rw [h1.stat]; exact hx))

theorem fold_dead : ∀ (l : List Kid) {s : Race} {κ : Kid}, (∀ c, Sane (s.ch c)) → (l.foldl Race.hit s).defined → κ ∈ l →
    s.fine κ → (l.foldl Race.hit s).dead κ
  | x :: l, s, κ, hs, hd, hm, hf => by
    have hd' := (Moves.fold Moves.hit l _).defined hd
    have hs' := (Moves.hit s x).sane hs
    by_cases hx : κ = x
    · subst hx
      exact (Moves.fold Moves.hit l _).dead hs' hd κ (fine.hit hs hd' hf)
    · have h1 : s.stat κ = .susp := Fine.stat hf
      exact fold_dead l hs' hd (by simpa [hx] using hm) (Near.fine (hit_near hs hd' hx (by rw [h1]; simp)) hf)

/-- The state of a race none of whose branches found the other side waiting. -/
structure Core (s : Race) : Prop where
  sane : ∀ c, Sane (s.ch c)
  nodup : s.kids.Nodup
  noWinner : s.index = none → ∀ κ ∈ s.started, s.fine κ
  winner : ∀ i, s.index = some i → i < s.next ∧ ∃ κ, s.kids[i]? = some κ ∧ s.ovr κ ∧
    ∀ κ' ∈ s.started, κ' ≠ κ → s.dead κ'
  threw : s.threw = false

/-- … and of the branches not started. -/
structure Good (s : Race) : Prop extends Core s where
  fresh : s.next = 0 ∨ s.going = true → ∀ κ ∈ s.kids.drop s.next, s.stat κ = .fresh
  going : s.going = true → s.index = none
  gap : s.gap = true → s.act = true
  len : s.next ≤ s.kids.length

theorem not_started {s : Race} (h : s.kids.Nodup) {κ : Kid} (hd : κ ∈ s.kids.drop s.next) : κ ∉ s.started := by
  intro hs
  rw [← List.take_append_drop s.next s.kids] at h
  exact (List.nodup_append.mp h).2.2 κ hs κ hd rfl

/-- A race with a winner that has called `cancel_all`. -/
theorem cancelAll_core {s : Race} (hd : s.cancelAll.defined) (hs : ∀ c, Sane (s.ch c)) (hn : s.kids.Nodup)
    (ht : s.threw = false) {i : Nat} (hi : s.index = some i) (hin : i < s.next)
    {κ : Kid} (hk : s.kids[i]? = some κ) (ho : s.ovr κ)
    (hr : ∀ κ' ∈ s.started, κ' ≠ κ → s.fine κ' ∨ s.dead κ') : Core s.cancelAll := by
  have hm := Moves.cancelAll s
  refine ⟨hm.sane hs, by rw [hm.kids]; exact hn, ?_, ?_, by rw [hm.threw]; exact ht⟩
  · rw [hm.index i hi]; intro h; cases h
  · intro j hj
    rw [hm.index i hi] at hj
    cases hj
    rw [hm.next, hm.kids, hm.started]
    refine ⟨hin, κ, hk, hm.ovr hs hd κ ho, fun κ' h1 h2 => ?_⟩
    rcases hr κ' h1 h2 with h | h
    · exact fold_dead _ hs hd h1 h
    · exact hm.dead hs hd κ' h

theorem mem_started {s : Race} {k : Nat} {κ : Kid} (hk : k < s.next) (h : s.kids[k]? = some κ) : κ ∈ s.started := by
  unfold Race.started
  rw [List.mem_iff_getElem?]
  exact ⟨k, by rw [List.getElem?_take, if_pos hk, h]⟩

theorem of_mem_started {s : Race} {κ : Kid} (h : κ ∈ s.started) : ∃ k, k < s.next ∧ s.kids[k]? = some κ := by
  unfold Race.started at h
  rw [List.mem_iff_getElem?] at h
  obtain ⟨k, h⟩ := h
  rw [List.getElem?_take] at h
  split at h
  · exact ⟨k, by assumption, h⟩
  · cases h

theorem mem_ended {s₀ s : Race} {k : Nat} : k ∈ ended s₀ s ↔ k < s.next ∧ ∃ κ, s.kids[k]? = some κ ∧
    s.stat κ = .done ∧ s₀.stat κ ≠ .done := by
  unfold ended
  rw [List.mem_filter, List.mem_range]
  constructor
  · rintro ⟨h1, h2⟩
    split at h2
    · rename_i κ hκ
      simp at h2
      exact ⟨h1, κ, hκ, h2⟩
    · cases h2
  · rintro ⟨h1, κ, h2, h3, h4⟩
    refine ⟨h1, ?_⟩
    rw [h2]
    simp [h3, h4]

/-- Nothing has ended and nothing is settled. -/
theorem settle_same {s₀ s : Race} (h : ∀ κ ∈ s.started, s.fine κ) : settle s₀ s = s := by
  have : ended s₀ s = [] := by
    rw [List.eq_nil_iff_forall_not_mem]
    intro k hk
    obtain ⟨h1, κ, h2, h3, _⟩ := mem_ended.mp hk
    have := Fine.stat (h κ (mem_started h1 h2))
    rw [Race.stat, this] at h3
    cases h3
  unfold settle
  rw [this]

/-- The first branch has ended. -/
theorem settle_first {s₀ s : Race} (hd : (settle s₀ s).defined) (hs : ∀ c, Sane (s.ch c)) (hn : s.kids.Nodup)
    (ht : s.threw = false) (hi : s.index = none) {κ : Kid} (hκ : κ ∈ s.started) (h1 : s.stat κ = .done)
    (h0 : s₀.stat κ ≠ .done) (hr : ∀ κ' ∈ s.started, κ' ≠ κ → s.fine κ') : Core (settle s₀ s) := by
  obtain ⟨k, hk, hkk⟩ := of_mem_started hκ
  have hall : ∀ j ∈ ended s₀ s, s.kids[j]? = some κ := by
    intro j hj
    obtain ⟨h2, κ', h3, h4, _⟩ := mem_ended.mp hj
    by_cases he : κ' = κ
    · rw [h3, he]
    · have := Fine.stat (hr κ' (mem_started h2 h3) he)
      rw [Race.stat, this] at h4
      cases h4
  unfold settle at *
  split at hd
  · rename_i he
    have := mem_ended.mpr ⟨hk, κ, hkk, h1, h0⟩
    rw [he] at this
    cases this
  · rename_i j l he
    have hj := hall j (by rw [he]; exact List.mem_cons_self)
    have hj' := (mem_ended.mp (show j ∈ ended s₀ s by rw [he]; exact List.mem_cons_self)).1
    exact cancelAll_core hd hs hn ht (by simp [hi]) hj' hj (Or.inl h1) fun κ' h2 h3 => Or.inl (hr κ' h2 h3)

/-- There is a winner already. -/
theorem settle_won {s₀ s : Race} (hd : (settle s₀ s).defined) (h : Core s) {i : Nat} (hi : s.index = some i) :
    Core (settle s₀ s) := by
  unfold settle at *
  split at hd
  · rename_i he
    exact h
  · rename_i j l he
    obtain ⟨h1, κ, h2, h3, h4⟩ := h.winner i hi
    exact cancelAll_core hd h.sane h.nodup h.threw (by simp [hi]) h1 h2 h3 fun κ' h5 h6 => Or.inr (h4 κ' h5 h6)

/-- The branches not started are left alone. -/
theorem settle_near {s₀ s : Race} (hd : (settle s₀ s).defined) (hs : ∀ c, Sane (s.ch c)) {κ : Kid} (hk : κ ∉ s.started)
    (hx : s.stat κ ≠ .absent) : near s (settle s₀ s) κ := by
  unfold settle at *
  split at hd
  · rename_i he
    exact Near.refl _ _
  · rename_i j l he
    exact fold_near s.started hs hd hk hx

/-- When there is a winner, nothing changes any more. -/
theorem Core.won {s s' : Race} (h : Core s) (hm : Moves s s') (hd' : s'.defined) {i : Nat} (hi : s.index = some i) :
    Core s' := by
  refine ⟨hm.sane h.sane, by rw [hm.kids]; exact h.nodup, ?_, ?_, by rw [hm.threw]; exact h.threw⟩
  · rw [hm.index i hi]; intro h; cases h
  · intro j hj
    rw [hm.index i hi] at hj
    cases hj
    obtain ⟨h1, κ, h2, h3, h4⟩ := h.winner i hi
    rw [hm.next, hm.kids, hm.started]
    exact ⟨h1, κ, h2, hm.ovr h.sane hd' κ h3, fun κ' h5 h6 => hm.dead h.sane hd' κ' (h4 κ' h5 h6)⟩

/-- A step of a channel that is not about the branches. -/
theorem Core.on {s : Race} (h : Core s) {c : Nat} {e : Ev} (hd : (settle s (s.on c e)).defined)
    (hn : ∀ κ ∈ s.started, κ.ch = c → κ.op ∉ e.names) (hf : ∀ κ ∈ s.started, κ.ch = c → (s.ch c).finds e ≠ some κ.op) :
    Core (settle s (s.on c e)) := by
  have hm := Moves.on s c e
  have hd' := (Moves.settle s _).defined hd
  cases hi : s.index with
  | some i =>
    exact settle_won hd (h.won hm hd' hi) (hm.index i hi)
  | none =>
    have hfine := h.noWinner hi
    have hnear : ∀ κ ∈ s.started, (κ.ch = c → (s.ch c).runs e ≠ some κ.op) → (s.on c e).fine κ := by
      intro κ hκ hr
      have h1 : s.stat κ = .susp := Fine.stat (hfine κ hκ)
      exact Near.fine (on_near h.sane hd' (hn κ hκ) (hf κ hκ) hr (by rw [h1]; simp)) (hfine κ hκ)
    by_cases hex : ∃ κ ∈ s.started, κ.ch = c ∧ (s.ch c).runs e = some κ.op
    · obtain ⟨κ, hκ, rfl, hr⟩ := hex
      have hu := hd' κ.ch
      simp only [Race.on, upd_apply, if_true] at hu
      refine settle_first hd (hm.sane h.sane) h.nodup h.threw hi (κ := κ) hκ ?_ ?_ ?_
      · simp only [Race.stat, Race.on, upd_apply, if_true]
        rcases runs_done hr with h1 | h1
        · rw [hu] at h1; cases h1
        · exact h1
      · have h1 : s.stat κ = .susp := Fine.stat (hfine κ hκ)
        rw [h1]; simp
      · intro κ' h1 h2
        refine hnear κ' h1 fun h3 h4 => ?_
        rw [hr] at h4
        exact Kid.ne h2 h3 (Option.some.inj h4).symm
    · have : ∀ κ ∈ (s.on c e).started, (s.on c e).fine κ := by
        intro κ hκ
        exact hnear κ hκ fun h1 h2 => hex ⟨κ, hκ, h1, h2⟩
      rw [settle_same this]
      exact ⟨hm.sane h.sane, h.nodup, fun _ => this, fun i h' => (by rw [show (s.on c e).index = s.index from rfl, hi] at h'; cases h'),
        h.threw⟩

/-- Nobody can find a branch waiting once there is a winner. -/
theorem Core.idle {s : Race} (h : Core s) (hd : s.defined) {i : Nat} (hi : s.index = some i) {κ : Kid} (hκ : κ ∈ s.started) :
    (s.ch κ.ch).awaited κ.op = false := by
  obtain ⟨_, κ', _, h1, h2⟩ := h.winner i hi
  by_cases he : κ = κ'
  · subst he
    exact h1.idle ((h.sane κ.ch).wf (hd _)).1
  · have h3 := h2 κ hκ he
    unfold Race.dead at h3
    cases ho : κ.op with
    | r j => rw [ho] at h3; exact h3.2.2.2.2.1
    | w j => rw [ho] at h3; exact h3.2.2.2.2.1

/-- An operation found in the queue without a coroutine waiting is undefined behaviour. -/
theorem finds_idle {s : St} {e : Ev} {t : Tok} (hf : s.finds e = some t) (hw : s.awaited t = false) :
    (s.step e).ub = true := by
  cases hu : s.ub with
  | true => rw [step_ub hu]; exact hu
  | false =>
    cases e with
    | awaitR j c z l =>
      simp only [St.finds] at hf
      split at hf
      · rename_i hc
        cases hq : s.wq with
        | nil => rw [hq] at hf; cases hf
        | cons w rest =>
          rw [hq] at hf
          cases hf
          have hw : (s.W w).waiting = false := hw
          simp only [St.step, hu, Bool.false_eq_true, if_false]
          rw [awaitR_eq, if_neg (by simp [hc.1])]
          dsimp only
          have hrr : St.readReady { s with log := s.log ++ [Obs.startR j] } = s.readReady := rfl
          rw [hrr, if_neg (by simp [hc.2.1, hc.2.2]), hq]
          dsimp only
          rw [if_neg (by simp [hw])]
      · cases hf
    | awaitW j c z l =>
      simp only [St.finds] at hf
      split at hf
      · rename_i hc
        cases hq : s.rq with
        | nil => rw [hq] at hf; cases hf
        | cons w rest =>
          rw [hq] at hf
          cases hf
          have hw : (s.R w).waiting = false := hw
          simp only [St.step, hu, Bool.false_eq_true, if_false]
          rw [awaitW_eq, if_neg (by simp [hc.1])]
          dsimp only
          have hrr : St.writeReady { s with log := s.log ++ [Obs.startW j] } = s.writeReady := rfl
          rw [hrr, if_neg (by simp [hc.2.1, hc.2.2]), hq]
          dsimp only
          rw [if_neg (by simp [hw])]
      · cases hf
    | _ => cases hf

theorem Core.chan {s : Race} (h : Core s) {c : Nat} {e : Ev} (hd : (s.chan c e).defined)
    (hn : ∀ κ ∈ s.started, κ.ch = c → κ.op ∉ e.names) : Core (s.chan c e) := by
  unfold Race.chan at *
  split at hd
  · rename_i hf
    exact h.on hd hn fun κ _ _ => by rw [hf]; simp
  · rename_i t hf
    split at hd
    · rename_i hw
      obtain ⟨hw, hm⟩ := hw
      rw [if_pos ⟨hw, hm⟩]
      split at hd
      · rename_i hi
        have hd' : s.defined := hd
        obtain ⟨i, hi'⟩ := Option.isSome_iff_exists.mp hi
        have := h.idle hd' hi' hm
        simp only at this
        rw [this] at hw
        cases hw
      · rename_i hi
        rw [if_neg hi]
        dsimp only at hd ⊢
        have hi' : s.index = none := by simpa using hi
        have hfine := h.noWinner hi'
        have hm1 := Moves.settle s (Race.cancelAll (({ s with index := some (s.kids.idxOf ⟨c, t⟩) } : Race).on c
          (e.hitting ((s.started.filter fun κ => κ.ch == c).map Kid.op))))
        have hd1 := hm1.defined hd
        have hm2 := Moves.cancelAll (({ s with index := some (s.kids.idxOf ⟨c, t⟩) } : Race).on c
          (e.hitting ((s.started.filter fun κ => κ.ch == c).map Kid.op)))
        have hd2 := hm2.defined hd1
        have hu := hd2 c
        simp only [Race.on, upd_apply, if_true] at hu
        obtain ⟨k, hk, hkk⟩ := of_mem_started hm
        have hidx : s.kids.idxOf ⟨c, t⟩ = k := by
          obtain ⟨hlt, hg⟩ := List.getElem?_eq_some_iff.mp hkk
          rw [← hg]
          exact h.nodup.idxOf_getElem k hlt
        have hft : Fine (s.ch c) t := hfine _ hm
        obtain ⟨ha, hb⟩ := found (step_defined hu) hf hw hft ((s.started.filter fun κ => κ.ch == c).map Kid.op)
        have hc := cancelAll_core hd1 ((Moves.on _ _ _).sane h.sane) h.nodup h.threw (i := k) (by simp [Race.on, hidx]) hk hkk
          (by
            rcases ha with ha | ha
            · rw [hu] at ha; cases ha
            · left; simp only [Race.on, upd_apply, if_true]; exact ha)
          (by
            intro κ' h1 h2
            by_cases hc : κ'.ch = c
            · right
              simp only [Race.dead, Race.on, upd_apply, hc, if_true]
              refine hb κ'.op (List.mem_map.mpr ⟨κ', List.mem_filter.mpr ⟨h1, by simp [hc]⟩, rfl⟩) ?_ ?_
              · intro ho
                apply h2
                cases κ'
                simp only at hc ho
                rw [hc, ho]
              · rw [← hc]; exact hfine κ' h1
            · left
              simp only [Race.fine, Race.on, upd_apply, hc, if_false]
              exact hfine κ' h1)
        exact settle_won hd hc (hm2.index k (by simp [Race.on, hidx]))
    · rename_i hw
      rw [if_neg hw]
      refine h.on hd hn fun κ hκ hc => ?_
      rw [hf]
      intro ht
      cases ht
      have hw' : (s.ch c).awaited κ.op = false := by
        cases hx : (s.ch c).awaited κ.op with
        | false => rfl
        | true => exact absurd ⟨hx, by rw [← hc]; exact hκ⟩ hw
      have hd' := (Moves.settle s _).defined hd c
      simp only [Race.on, upd_apply, if_true] at hd'
      rw [finds_idle hf hw'] at hd'
      cases hd'

theorem hitting_names {e : Ev} {hits : List Tok} {t : Tok} (h : t ∉ e.names) (h' : t ∉ hits) :
    t ∉ (e.hitting hits).names := by
  cases e <;> simp_all [Ev.hitting, Ev.names]

theorem hitting_finds (s : St) (e : Ev) (hits : List Tok) : s.finds (e.hitting hits) = s.finds e := by
  cases e <;> rfl

theorem hitting_runs (s : St) (e : Ev) (hits : List Tok) : s.runs (e.hitting hits) = s.runs e := by
  cases e <;> rfl

/-- An operation that has not been awaited is not waiting, and nobody resumes it. -/
theorem fresh_idle {s : St} (hw : WF s none) {t : Tok} (h : s.stat t = .fresh) :
    (∀ e, s.finds e ≠ some t) ∧ ∀ e, s.runs e ≠ some t := by
  constructor
  · intro e hf
    cases e with
    | awaitR j c z l =>
      simp only [St.finds] at hf
      split at hf
      · cases hq : s.wq with
        | nil => rw [hq] at hf; cases hf
        | cons w rest =>
          rw [hq] at hf
          cases hf
          have := (hw.wlink w (by simp [hq])).2.2
          simp only [St.stat] at h
          grind
      · cases hf
    | awaitW j c z l =>
      simp only [St.finds] at hf
      split at hf
      · cases hq : s.rq with
        | nil => rw [hq] at hf; cases hf
        | cons w rest =>
          rw [hq] at hf
          cases hf
          have := (hw.rlink w (by simp [hq])).2
          simp only [St.stat] at h
          grind
      · cases hf
    | _ => cases hf
  · intro e hr
    cases e with
    | run k =>
      have hm := List.mem_of_getElem? hr
      cases t with
      | r i => have := (hw.rpost i hm).1; simp only [St.stat] at h; grind
      | w i => have := (hw.wpost i hm).1; simp only [St.stat] at h; grind
    | _ => cases hr

/-- The branches not started are left alone. -/
theorem chan_fresh {s : Race} (hs : ∀ c, Sane (s.ch c)) {c : Nat} {e : Ev} (hd : (s.chan c e).defined) {κ : Kid}
    (hn : κ.ch = c → κ.op ∉ e.names) (hk : κ ∉ s.started) (hf : s.stat κ = .fresh) : (s.chan c e).stat κ = .fresh := by
  have key : ∀ (s' : Race) (e' : Ev), s'.ch = s.ch → s'.kids = s.kids → s'.next = s.next →
      (s'.on c e').defined → (κ.ch = c → κ.op ∉ e'.names) → near s (s'.on c e') κ := by
    intro s' e' h1 h2 h3 hd' hn'
    have hs' : ∀ c, Sane (s'.ch c) := by rw [h1]; exact hs
    have hst : s'.stat κ = .fresh := by rw [Race.stat, h1]; exact hf
    have hu := (Moves.on s' c e').defined hd' κ.ch
    have hfi := fresh_idle ((hs' κ.ch).wf hu).1 hst
    have := on_near hs' hd' hn' (fun h => by rw [← h]; exact hfi.1 e') (fun h => by rw [← h]; exact hfi.2 e')
      (by rw [hst]; simp)
    unfold near
    rw [← h1]
    exact this
  unfold Race.chan at *
  split at hd
  · have h1 := key s e rfl rfl rfl ((Moves.settle s _).defined hd) hn
    rw [(settle_near hd ((Moves.on s c e).sane hs) (κ := κ) hk (by rw [h1.stat, hf]; simp)).stat, h1.stat, hf]
  · rename_i t _
    split at hd
    · split at hd
      · rw [if_pos (by assumption), if_pos (by assumption)]; exact hf
      · rw [if_pos (by assumption), if_neg (by assumption)]
        dsimp only at hd ⊢
        have hd1 := (Moves.settle s _).defined hd
        have hd2 := (Moves.cancelAll _).defined hd1
        have hs1 := (Moves.on ({ s with index := some (s.kids.idxOf ⟨c, t⟩) } : Race) c
          (e.hitting ((s.started.filter fun κ => κ.ch == c).map Kid.op))).sane hs
        have h1 := key { s with index := some (s.kids.idxOf ⟨c, t⟩) } _ rfl rfl rfl hd2 (fun h => hitting_names (hn h) (by
          intro hm
          obtain ⟨κ', h2, h3⟩ := List.mem_map.mp hm
          obtain ⟨h4, h5⟩ := List.mem_filter.mp h2
          apply hk
          have : κ' = κ := by
            cases κ; cases κ'
            simp only [beq_iff_eq] at *
            rw [h5, h3, h]
          rw [← this]; exact h4))
        have h2 : near _ (Race.cancelAll _) κ := fold_near _ hs1 hd1 (κ := κ) hk (by rw [h1.stat, hf]; simp)
        have h3 := (Moves.cancelAll _).sane hs1
        rw [(settle_near hd h3 (κ := κ) (by rw [(Moves.cancelAll _).started]; exact hk)
          (by rw [h2.stat, h1.stat, hf]; simp)).stat, h2.stat, h1.stat, hf]
    · rw [if_neg (by assumption)]
      have h1 := key s e rfl rfl rfl ((Moves.settle s _).defined hd) hn
      rw [(settle_near hd ((Moves.on s c e).sane hs) (κ := κ) hk (by rw [h1.stat, hf]; simp)).stat, h1.stat, hf]

/-- What `chan` does not change. -/
theorem chan_moves (s : Race) (c : Nat) (e : Ev) : ((s.chan c e).kids = s.kids ∧ (s.chan c e).next = s.next ∧
    (s.chan c e).going = s.going ∧ (s.chan c e).gap = s.gap ∧ (s.chan c e).act = s.act ∧ ((s.chan c e).defined → s.defined)) := by
  unfold Race.chan
  split
  · have := (Moves.on s c e).trans (Moves.settle s _)
    exact ⟨this.kids, this.next, this.going, this.gap, this.act, this.defined⟩
  · rename_i t _
    split
    · split
      · exact ⟨rfl, rfl, rfl, rfl, rfl, fun h => h⟩
      · dsimp only
        have := ((Moves.on ({ s with index := some (s.kids.idxOf ⟨c, t⟩) } : Race) c
          (e.hitting ((s.started.filter fun κ => κ.ch == c).map Kid.op))).trans (Moves.cancelAll _)).trans (Moves.settle s _)
        exact ⟨this.kids, this.next, this.going, this.gap, this.act, fun h => this.defined h⟩
    · have := (Moves.on s c e).trans (Moves.settle s _)
      exact ⟨this.kids, this.next, this.going, this.gap, this.act, this.defined⟩

theorem Core.int {s : Race} (h : Core s) {κ : Kid} (hκ : κ ∈ s.started)
    (hd : (settle s (s.on κ.ch κ.op.int)).defined) : Core (settle s (s.on κ.ch κ.op.int)) := by
  have hm := Moves.on s κ.ch κ.op.int
  have hd' := (Moves.settle s _).defined hd
  cases hi : s.index with
  | some i => exact settle_won hd (h.won hm hd' hi) (hm.index i hi)
  | none =>
    have hfine := h.noWinner hi
    have hsusp : ∀ κ' ∈ s.started, s.stat κ' = .susp := fun κ' h' => Fine.stat (hfine κ' h')
    have hu := hd' κ.ch
    simp only [Race.on, upd_apply, if_true] at hu
    have hoth : ∀ κ' ∈ s.started, κ' ≠ κ → (s.on κ.ch κ.op.int).fine κ' := fun κ' h1 h2 =>
      Near.fine (int_near h.sane hd' h2 (by rw [hsusp κ' h1]; simp)) (hfine κ' h1)
    rcases Fine.int' (hfine κ hκ) (step_defined hu) with h1 | h1
    · refine settle_first hd (hm.sane h.sane) h.nodup h.threw hi (κ := κ) hκ ?_ (by rw [hsusp κ hκ]; simp) hoth
      simp only [Race.stat, Race.on, upd_apply, if_true]
      exact h1
    · have hall : ∀ κ' ∈ (s.on κ.ch κ.op.int).started, (s.on κ.ch κ.op.int).fine κ' := by
        intro κ' h2
        by_cases h3 : κ' = κ
        · subst h3
          simp only [Race.fine, Race.on, upd_apply, if_true]
          exact h1
        · exact hoth κ' h2 h3
      rw [settle_same hall]
      exact ⟨hm.sane h.sane, h.nodup, fun _ => hall,
        fun i h' => (by rw [show (s.on κ.ch κ.op.int).index = s.index from rfl, hi] at h'; cases h'), h.threw⟩

theorem Core.cancel1 {s : Race} (h : Core s) {κ : Kid} (hκ : κ ∈ s.started)
    (hd : (s.on κ.ch κ.op.cancel).defined) : Core (s.on κ.ch κ.op.cancel) := by
  have hm := Moves.on s κ.ch κ.op.cancel
  cases hi : s.index with
  | some i => exact h.won hm hd hi
  | none =>
    have hfine := h.noWinner hi
    have hsusp : ∀ κ' ∈ s.started, s.stat κ' = .susp := fun κ' h' => Fine.stat (hfine κ' h')
    refine ⟨hm.sane h.sane, h.nodup, fun _ κ' h2 => ?_,
      fun i h' => (by rw [show (s.on κ.ch κ.op.cancel).index = s.index from rfl, hi] at h'; cases h'), h.threw⟩
    by_cases h3 : κ' = κ
    · subst h3
      simp only [Race.fine, Race.on, upd_apply, if_true]
      exact Fine.cancel (hfine κ' hκ)
    · exact Near.fine (cancel_near h.sane hd h3 (by rw [hsusp κ' h2]; simp)) (hfine κ' h2)

theorem Moves.interrupt (s : Race) : Moves s s.interrupt := by
  refine Moves.fold (fun s κ => ?_) _ _
  split
  · exact Moves.refl s
  · exact (Moves.on s _ _).trans (Moves.settle s _)

theorem Moves.cancel (s : Race) : Moves s s.cancel := by
  refine Moves.fold (fun s κ => ?_) _ _
  split
  · exact Moves.on s _ _
  · exact Moves.refl s

theorem Moves.destroy (s : Race) : Moves s s.destroy := Moves.fold (fun s _ => Moves.on s _ _) _ _

theorem fold_core {f : Race → Kid → Race} (hf : ∀ s κ, Moves s (f s κ))
    (hc : ∀ s κ, Core s → κ ∈ s.started → (f s κ).defined → Core (f s κ)) : ∀ (l : List Kid) (s : Race), Core s →
    (∀ κ ∈ l, κ ∈ s.started) → (l.foldl f s).defined → Core (l.foldl f s)
  | [], _, h, _, _ => h
  | κ :: l, s, h, hl, hd => by
    have hd' := (Moves.fold hf l (f s κ)).defined hd
    exact fold_core hf hc l (f s κ) (hc s κ h (hl κ List.mem_cons_self) hd')
      (fun κ' h' => by rw [(hf s κ).started]; exact hl κ' (List.mem_cons_of_mem _ h')) hd

/-- After a step that leaves `next` alone and after which no branch will be started. -/
theorem Good.of_core {s s' : Race} (h : Good s) (hm : Moves s s') (hg : s.going = false) (hc : Core s')
    (hf : s.next = 0 → s'.ch = s.ch) : Good s' := by
  refine ⟨hc, ?_, ?_, ?_, by rw [hm.next, hm.kids]; exact h.len⟩
  · rw [hm.next, hm.kids, hm.going, hg]
    rintro (h0 | h0)
    · intro κ hκ
      rw [Race.stat, hf h0]
      exact h.fresh (Or.inl h0) κ hκ
    · cases h0
  · rw [hm.going, hg]; intro h; cases h
  · rw [hm.gap, hm.act]; exact h.gap

theorem started_zero {s : Race} (h : s.next = 0) : s.started = [] := by unfold Race.started; rw [h]; rfl

theorem Good.start {s : Race} (h : Good s) (hcan : s.next = 0 ∨ s.going = true) (hd : s.start.defined)
    (ha : s.start.act = false) : Good s.start := by
  unfold Race.start at *
  cases hk : s.kids[s.next]? with
  | none => rw [hk] at hd ha; exact h
  | some κ =>
    rw [hk] at hd ha
    dsimp only at hd ha ⊢
    obtain ⟨hlt, hget⟩ := List.getElem?_eq_some_iff.mp hk
    have hi : s.index = none := by
      rcases hcan with h0 | h0
      · cases hx : s.index with
        | none => rfl
        | some i => have := (h.winner i hx).1; omega
      · exact h.going h0
    have hdrop : s.kids.drop s.next = κ :: s.kids.drop (s.next + 1) := by
      rw [← hget]; exact List.drop_eq_getElem_cons hlt
    have hfr : s.stat κ = .fresh := h.fresh hcan κ (by rw [hdrop]; exact List.mem_cons_self)
    generalize hact : ((s.ch κ.ch).finds κ.op.await).isSome = active at hd ha ⊢
    have hcm := chan_moves { s with next := s.next + 1, gap := active, act := s.act || active } κ.ch κ.op.await
    rw [hcm.2.2.2.2.1] at ha
    simp only [Bool.or_eq_false_iff] at ha
    obtain ⟨ha, rfl⟩ := ha
    have hf : (s.ch κ.ch).finds κ.op.await = none := by simpa using hact
    generalize hs' : ({ s with next := s.next + 1, gap := false, act := s.act || false } : Race) = s' at hd hcm ⊢
    have e1 : s'.ch = s.ch := by rw [← hs']
    have e2 : s'.kids = s.kids := by rw [← hs']
    have e3 : s'.next = s.next + 1 := by rw [← hs']
    have e4 : s'.index = none := by rw [← hs']; exact hi
    have e5 : s'.threw = false := by rw [← hs']; exact h.threw
    have e6 : s'.act = false := by rw [← hs']; simp [ha]
    have e7 : s'.gap = false := by rw [← hs']
    have hst : s'.started = s.started ++ [κ] := by
      unfold Race.started
      rw [e2, e3, List.take_add_one, hk]
      rfl
    have hsane : ∀ c, Sane (s'.ch c) := by rw [e1]; exact h.sane
    have hchan : s'.chan κ.ch κ.op.await = settle s' (s'.on κ.ch κ.op.await) := by
      unfold Race.chan
      rw [e1, hf]
    have hdd : (settle s' (s'.on κ.ch κ.op.await)).defined := by rw [← hchan]; exact hd
    have hd' := (Moves.settle s' _).defined hdd
    have hm := Moves.on s' κ.ch κ.op.await
    have hu := hd' κ.ch
    simp only [Race.on, upd_apply, if_true, e1] at hu
    have hwf := (h.sane κ.ch).wf (step_defined hu)
    have hstat : s'.stat κ = .fresh := by rw [Race.stat, e1]; exact hfr
    have hn : κ ∉ s.started := not_started h.nodup (by rw [hdrop]; exact List.mem_cons_self)
    have hnear : ∀ κ', κ' ≠ κ → s'.stat κ' ≠ .absent → near s' (s'.on κ.ch κ.op.await) κ' := by
      intro κ' hne hx
      exact on_near hsane hd' (fun hc => by rw [names_await, List.mem_singleton]; exact Kid.ne hne hc)
        (fun _ => by rw [e1, hf]; simp) (fun _ => by rw [runs_await]; simp) hx
    have hoth : ∀ κ' ∈ s'.started, κ' ≠ κ → (s'.on κ.ch κ.op.await).fine κ' := by
      intro κ' h1 h2
      rw [hst] at h1
      have h3 : κ' ∈ s.started := by simpa [h2] using h1
      have h4 : s'.fine κ' := by rw [Race.fine, e1]; exact h.noWinner hi κ' h3
      exact Near.fine (hnear κ' h2 (by have := Fine.stat h4; rw [Race.stat, this]; simp)) h4
    have hrest : ∀ κ' ∈ s.kids.drop (s.next + 1), (settle s' (s'.on κ.ch κ.op.await)).stat κ' = .fresh := by
      intro κ' h1
      have hne : κ' ≠ κ := by
        rintro rfl
        have := h.nodup
        rw [← List.take_append_drop s.next s.kids, hdrop] at this
        exact (List.nodup_cons.mp (List.nodup_append.mp this).2.1).1 h1
      have h2 : s'.stat κ' = .fresh := by
        rw [Race.stat, e1]; exact h.fresh hcan κ' (by rw [hdrop]; exact List.mem_cons_of_mem _ h1)
      have h3 := hnear κ' hne (by rw [h2]; simp)
      have h4 : κ' ∉ (s'.on κ.ch κ.op.await).started := by
        rw [hm.started]
        exact not_started (by rw [e2]; exact h.nodup) (by rw [e2, e3]; exact h1)
      rw [(settle_near hdd (hm.sane hsane) h4 (by rw [h3.stat, h2]; simp)).stat, h3.stat, h2]
    have hcore : Core (settle s' (s'.on κ.ch κ.op.await)) ∧
        ((settle s' (s'.on κ.ch κ.op.await)).ovr κ ∨ (settle s' (s'.on κ.ch κ.op.await)).index = none) := by
      rcases Cobalt.Chan.started hwf.2 hfr hwf.1 hf with h1 | h1 | h1
      · rw [hu] at h1; cases h1
      · have h2 : (s'.on κ.ch κ.op.await).stat κ = .done := by
          simp only [Race.stat, Race.on, upd_apply, if_true, e1]; exact h1
        refine ⟨settle_first hdd (hm.sane hsane) (by rw [hm.kids, e2]; exact h.nodup) (by rw [hm.threw]; exact e5) e4
          (κ := κ) (by rw [hm.started, hst]; simp) h2 (by rw [hstat]; simp) (by rw [hm.started]; exact hoth), Or.inl ?_⟩
        exact (Moves.settle s' _).ovr (hm.sane hsane) hdd κ (Or.inl h2)
      · have hall : ∀ κ' ∈ (s'.on κ.ch κ.op.await).started, (s'.on κ.ch κ.op.await).fine κ' := by
          intro κ' h2
          by_cases h3 : κ' = κ
          · subst h3
            simp only [Race.fine, Race.on, upd_apply, if_true, e1]
            exact h1
          · exact hoth κ' (by rw [hm.started] at h2; exact h2) h3
        rw [settle_same hall]
        exact ⟨⟨hm.sane hsane, by rw [hm.kids, e2]; exact h.nodup, fun _ => hall,
          fun i h' => (by rw [show (s'.on κ.ch κ.op.await).index = s'.index from rfl, e4] at h'; cases h'),
          by rw [hm.threw]; exact e5⟩, Or.inr e4⟩
    rw [hchan]
    have hmv := hm.trans (Moves.settle s' _)
    refine ⟨⟨hcore.1.sane, hcore.1.nodup, hcore.1.noWinner, hcore.1.winner, hcore.1.threw⟩, ?_, ?_, ?_, ?_⟩
    · dsimp only
      intro _ κ' h1
      rw [hmv.kids, hmv.next, e2, e3] at h1
      exact hrest κ' h1
    · dsimp only
      intro hg
      rcases hcore.2 with h1 | h1
      · simp only [Bool.and_eq_true, Bool.not_eq_true', Bool.or_eq_false_iff] at hg
        rcases h1 with h1 | h1
        · have := hg.2.1
          rw [Race.stat, h1] at this
          simp at this
        · have := hg.2.2
          rw [Race.stat, h1] at this
          simp at this
      · exact h1
    · dsimp only
      rw [hmv.gap, e7]; intro h; cases h
    · dsimp only
      rw [hmv.next, hmv.kids, e2, e3]; omega

theorem start_mono (s : Race) : (s.start.defined → s.defined) ∧ (s.start.act = false → s.act = false) := by
  unfold Race.start
  split
  · exact ⟨fun h => h, fun h => h⟩
  · dsimp only
    have hcm := fun a b c => chan_moves ({ s with next := s.next + 1, gap := a, act := b } : Race) c
    refine ⟨fun h => (hcm _ _ _ _).2.2.2.2.2 h, fun h => ?_⟩
    rw [(hcm _ _ _ _).2.2.2.2.1] at h
    simp only [Bool.or_eq_false_iff] at h
    exact h.1

theorem step_mono (s : Race) (e : REv) : ((s.step e).defined → s.defined) ∧ ((s.step e).act = false → s.act = false) := by
  unfold Race.step
  split
  · exact ⟨fun h => h, fun h => h⟩
  · cases e with
    | env c e => exact ⟨(chan_moves s c e).2.2.2.2.2, fun h => by rw [← (chan_moves s c e).2.2.2.2.1]; exact h⟩
    | start => exact start_mono s
    | interrupt => exact ⟨(Moves.interrupt s).defined, fun h => by rw [← (Moves.interrupt s).act]; exact h⟩
    | cancel => exact ⟨(Moves.cancel s).defined, fun h => by rw [← (Moves.cancel s).act]; exact h⟩
    | destroy => exact ⟨(Moves.destroy s).defined, fun h => by rw [← (Moves.destroy s).act]; exact h⟩

theorem Good.step {s : Race} (h : Good s) (e : REv) (hd : (s.step e).defined) (ha : (s.step e).act = false) :
    Good (s.step e) := by
  have ha0 := (step_mono s e).2 ha
  unfold Race.step at *
  split at hd
  · rw [if_pos (by assumption)]; exact h
  · rename_i hc
    rw [if_neg hc] at ha ⊢
    simp only [not_or, Decidable.not_not] at hc
    obtain ⟨_, hc⟩ := hc
    have hst : ∀ κ ∈ s.started, κ ∈ s.kids := fun κ hκ => List.mem_of_mem_take hκ
    cases e with
    | env c e =>
      obtain ⟨hg, hn⟩ := hc
      have hg : s.going = false := by
        rcases hg with hg | hg
        · exact hg
        · rw [h.gap hg] at ha0; cases ha0
      have hcore := h.toCore.chan hd (fun κ hκ hc => hn κ (hst κ hκ) hc)
      obtain ⟨e1, e2, e3, e4, e5, _⟩ := chan_moves s c e
      dsimp only at *
      refine ⟨hcore, ?_, (by rw [e3, hg]; intro h; cases h), (by rw [e4, e5]; exact h.gap), by rw [e1, e2]; exact h.len⟩
      rw [e1, e2, e3, hg]
      rintro (h0 | h0)
      · intro κ hκ
        exact chan_fresh h.sane hd (fun hc => hn κ (List.mem_of_mem_drop hκ) hc) (not_started h.nodup hκ)
          (h.fresh (Or.inl h0) κ hκ)
      · cases h0
    | start => exact h.start hc hd ha
    | interrupt =>
      refine h.of_core (Moves.interrupt s) hc ?_ (fun h0 => by
        show s.interrupt.ch = _; unfold Race.interrupt; rw [started_zero h0]; rfl)
      refine fold_core (fun s κ => ?_) (fun s κ h' hκ hd' => ?_) s.started s h.toCore (fun _ h => h) hd
      · split
        · exact Moves.refl s
        · exact (Moves.on s _ _).trans (Moves.settle s _)
      · split at hd'
        · rw [if_pos (by assumption)]; exact h'
        · rw [if_neg (by assumption)]; exact h'.int hκ hd'
    | cancel =>
      refine h.of_core (Moves.cancel s) hc ?_ (fun h0 => by
        show s.cancel.ch = _; unfold Race.cancel; rw [started_zero h0]; rfl)
      refine fold_core (fun s κ => ?_) (fun s κ h' hκ hd' => ?_) s.started s h.toCore (fun _ h => h) hd
      · split
        · exact Moves.on s _ _
        · exact Moves.refl s
      · split at hd'
        · rw [if_pos (by assumption)]; exact h'.cancel1 hκ hd'
        · rw [if_neg (by assumption)]; exact h'
    | destroy =>
      obtain ⟨hg, hpos, hall⟩ := hc
      refine h.of_core (Moves.destroy s) hg ?_ (fun h0 => by omega)
      cases hi : s.index with
      | some i => exact h.toCore.won (Moves.destroy s) hd hi
      | none =>
        have h0 : 0 < s.kids.length := Nat.lt_of_lt_of_le hpos h.len
        have hm := mem_started (s := s) hpos (List.getElem?_eq_getElem h0)
        have h1 : s.stat _ = .susp := Fine.stat (h.noWinner hi _ hm)
        have h2 := hall _ hm
        rw [h1] at h2
        simp at h2

/-- Channel `c` is left alone. -/
def Away (c : Nat) (s s' : Race) : Prop := s'.ch c = s.ch c ∧ s'.kids = s.kids ∧ s'.next = s.next

theorem Away.refl (c : Nat) (s : Race) : Away c s s := ⟨rfl, rfl, rfl⟩

theorem Away.trans {c : Nat} {s s' s'' : Race} (h : Away c s s') (h' : Away c s' s'') : Away c s s'' :=
  ⟨h'.1.trans h.1, h'.2.1.trans h.2.1, h'.2.2.trans h.2.2⟩

theorem Away.on {c : Nat} (s : Race) {c' : Nat} (e : Ev) (h : c' ≠ c) : Away c s (s.on c' e) :=
  ⟨by simp only [Race.on, upd_apply]; rw [if_neg (fun h' => h h'.symm)], rfl, rfl⟩

theorem Away.fold {c : Nat} {f : Race → Kid → Race} (hf : ∀ s κ, κ.ch ≠ c → Away c s (f s κ)) :
    ∀ (l : List Kid) (s : Race), (∀ κ ∈ l, κ.ch ≠ c) → Away c s (l.foldl f s)
  | [], s, _ => Away.refl c s
  | κ :: l, s, h => (hf s κ (h κ List.mem_cons_self)).trans
      (Away.fold hf l _ fun κ' h' => h κ' (List.mem_cons_of_mem _ h'))

theorem Away.cancelAll {c : Nat} {s : Race} (h : ∀ κ ∈ s.kids, κ.ch ≠ c) : Away c s (Race.cancelAll s) := by
  refine Away.fold (fun s κ hκ => ?_) _ _ (fun κ hκ => h κ (List.mem_of_mem_take hκ))
  unfold Race.hit
  split
  · exact Away.refl c s
  · exact (Away.on s _ hκ).trans (Away.on _ _ hκ)

theorem Away.settle {c : Nat} {s s' : Race} (h : ∀ κ ∈ s'.kids, κ.ch ≠ c) : Away c s' (Race.settle s s') := by
  unfold Race.settle
  split
  · exact Away.refl c s'
  · exact Away.trans (s' := { s' with index := _ }) ⟨rfl, rfl, rfl⟩ (Away.cancelAll h)

theorem Away.chan {c : Nat} {s : Race} (h : ∀ κ ∈ s.kids, κ.ch ≠ c) {c' : Nat} (e : Ev) (hc : c' ≠ c) :
    Away c s (s.chan c' e) := by
  unfold Race.chan
  split
  · exact (Away.on s e hc).trans (Away.settle h)
  · split
    · split
      · exact ⟨rfl, rfl, rfl⟩
      · dsimp only
        have h1 : ∀ i es, Away c s (Race.cancelAll (({ s with index := i } : Race).on c' es)) := fun i es =>
          Away.trans (s' := { s with index := i }) ⟨rfl, rfl, rfl⟩
            ((Away.on ({ s with index := i } : Race) es hc).trans (Away.cancelAll h))
        exact (h1 _ _).trans (Away.settle (by rw [(h1 _ _).2.1]; exact h))
    · exact (Away.on s e hc).trans (Away.settle h)

theorem Away.steps {c : Nat} : ∀ (es : List REv) (s : Race), (∀ κ ∈ s.kids, κ.ch ≠ c) →
    (∀ c' e, REv.env c' e ∈ es → c' ≠ c) → (s.steps es).ch c = s.ch c ∧ (s.steps es).kids = s.kids
  | [], _, _, _ => ⟨rfl, rfl⟩
  | e :: es, s, h, he => by
    have h1 : (s.step e).ch c = s.ch c ∧ (s.step e).kids = s.kids := by
      unfold Race.step
      split
      · exact ⟨rfl, rfl⟩
      · cases e with
        | env c' e => have := Away.chan h e (he c' e List.mem_cons_self); exact ⟨this.1, this.2.1⟩
        | start =>
          dsimp only
          unfold Race.start
          split
          · exact ⟨rfl, rfl⟩
          · rename_i κ hκ
            dsimp only
            have := fun a b d => Away.chan (s := { s with next := a, gap := b, act := d }) h κ.op.await
              (h κ (List.mem_of_getElem? hκ))
            exact ⟨(this _ _ _).1, (this _ _ _).2.1⟩
        | interrupt =>
          have : ∀ (l : List Kid) (s : Race), (∀ κ ∈ l, κ.ch ≠ c) → (∀ κ ∈ s.kids, κ.ch ≠ c) → Away c s
              (l.foldl (fun s κ => if s.stat κ = .done then s else Race.settle s (s.on κ.ch κ.op.int)) s) := by
            intro l
            induction l with
            | nil => exact fun s _ _ => Away.refl c s
            | cons κ l ih =>
              intro s h1 h2
              have h3 : Away c s (if s.stat κ = .done then s else Race.settle s (s.on κ.ch κ.op.int)) := by
                split
                · exact Away.refl c s
                · exact (Away.on s _ (h1 κ List.mem_cons_self)).trans (Away.settle h2)
              exact h3.trans (ih _ (fun κ' h' => h1 κ' (List.mem_cons_of_mem _ h')) (by rw [h3.2.1]; exact h2))
          have := this s.started s (fun κ hκ => h κ (List.mem_of_mem_take hκ)) h
          exact ⟨this.1, this.2.1⟩
        | cancel =>
          have : Away c s s.cancel := by
            refine Away.fold (fun s κ hκ => ?_) _ _ (fun κ hκ => h κ (List.mem_of_mem_take hκ))
            split
            · exact Away.on s _ hκ
            · exact Away.refl c s
          exact ⟨this.1, this.2.1⟩
        | destroy =>
          have : Away c s s.destroy := Away.fold (fun s κ hκ => Away.on s _ hκ) _ _ h
          exact ⟨this.1, this.2.1⟩
    have h2 := Away.steps es (s.step e) (by rw [h1.2]; exact h) (fun c' e' h' => he c' e' (List.mem_cons_of_mem _ h'))
    exact ⟨h2.1.trans h1.1, h2.2.trans h1.2⟩

theorem Fresh.good {s : Race} (h : s.Fresh) : Good s := by
  refine ⟨⟨fun c => ?_, h.kids, fun _ κ hκ => ?_, fun i hi => ?_, h.threw⟩, fun _ κ hκ => h.fresh κ (List.mem_of_mem_drop hκ),
    fun _ => h.index, fun hg => ?_, by rw [h.next]; exact Nat.zero_le _⟩
  · obtain ⟨cap, es, he⟩ := h.ch c
    rw [he]; exact Sane.exec cap es
  · rw [started_zero h.next] at hκ; cases hκ
  · rw [h.index] at hi; cases hi
  · rw [h.gap] at hg; cases hg

theorem steps_good {s : Race} (h : Good s) (es : List REv) (hd : (s.steps es).defined) (ha : (s.steps es).act = false) :
    Good (s.steps es) := by
  have hmono : ∀ (es : List REv) (s : Race), ((s.steps es).defined → s.defined) ∧ ((s.steps es).act = false → s.act = false) := by
    intro es
    induction es with
    | nil => exact fun s => ⟨fun h => h, fun h => h⟩
    | cons e es ih => exact fun s => ⟨fun h => (step_mono s e).1 ((ih _).1 h), fun h => (step_mono s e).2 ((ih _).2 h)⟩
  induction es generalizing s with
  | nil => exact h
  | cons e es ih => exact ih (h.step e ((hmono es _).1 hd) ((hmono es _).2 ha)) hd ha

end Race

end Cobalt.Chan
