import Verif.Chan.RaceModel
import Verif.Chan.Persist
/-! Helper: what a step of a channel does to an operation it is not about. -/
namespace Cobalt.Chan

/-- Operation `t` has not been touched, except that it may have been cancelled or posted. -/
def Near (s s' : St) : Tok → Prop
  | .r i => (s'.R i).status = (s.R i).status ∧ ((s.R i).cancelled = true → (s'.R i).cancelled = true) ∧
      (s'.R i).direct = (s.R i).direct ∧ ((s'.R i).waiting = true → (s.R i).waiting = true) ∧
      (s'.R i).txn = (s.R i).txn ∧ ∀ res, Obs.doneR i res ∈ s'.log → Obs.doneR i res ∈ s.log
  | .w i => (s'.W i).status = (s.W i).status ∧ ((s.W i).cancelled = true → (s'.W i).cancelled = true) ∧
      (s'.W i).direct = (s.W i).direct ∧ ((s'.W i).waiting = true → (s.W i).waiting = true) ∧
      (s'.W i).txn = (s.W i).txn ∧ ∀ res, Obs.doneW i res ∈ s'.log → Obs.doneW i res ∈ s.log

theorem Near.refl (s : St) (t : Tok) : Near s s t := by cases t <;> simp [Near]

theorem Near.trans {s s' s'' : St} {t : Tok} (h : Near s s' t) (h' : Near s' s'' t) : Near s s'' t := by
  cases t <;> (simp only [Near] at *; grind)

theorem Near.wakeWriter (s : St) (t : Tok) : Near s s.wakeWriter t := by
  unfold St.wakeWriter
  split
  · exact Near.refl s t
  · dsimp only
    split
    · split <;> (cases t <;> (simp only [Near]; grind))
    · cases t <;> simp [Near]

theorem Near.wakeReader (s : St) (t : Tok) : Near s s.wakeReader t := by
  unfold St.wakeReader
  split
  · exact Near.refl s t
  · dsimp only
    split
    · split <;> (cases t <;> (simp only [Near]; grind))
    · cases t <;> simp [Near]

theorem Near.resumeR (s : St) {j : Nat} {t : Tok} (h : t ≠ .r j) : Near s (s.resumeR j) t := by
  unfold St.resumeR
  split
  · cases t <;> (simp only [Near, St.endR]; grind)
  · split
    · cases t <;> (simp only [Near, St.endR]; grind)
    · split
      · cases t <;> simp [Near]
      all_goals
        refine Near.trans ?_ (Near.wakeWriter _ t)
        cases t <;> (simp only [Near, St.endR]; grind)

theorem Near.resumeW (s : St) {j : Nat} {t : Tok} (h : t ≠ .w j) : Near s (s.resumeW j) t := by
  unfold St.resumeW
  split
  · cases t <;> (simp only [Near, St.endW]; grind)
  · split
    · cases t <;> (simp only [Near, St.endW]; grind)
    · split
      all_goals
        refine Near.trans ?_ (Near.wakeReader _ t)
        cases t <;> (simp only [Near, St.endW]; grind)

theorem Near.int (s : St) {x t : Tok} (h : t ≠ x) : Near s (s.int x) t := by
  cases x with
  | r j =>
    simp only [St.int, intR_eq]
    split
    · exact Near.refl s t
    · split <;> (cases t <;> (simp only [Near, St.endR]; grind))
  | w j =>
    simp only [St.int, intW_eq]
    split
    · exact Near.refl s t
    · split <;> (cases t <;> (simp only [Near, St.endW]; grind))

theorem Near.hits (ts : List Tok) {t : Tok} : ∀ (s : St), t ∉ ts → Near s (ts.foldl St.int s) t := by
  induction ts with
  | nil => exact fun s _ => Near.refl s t
  | cons x ts ih =>
    intro s h
    simp only [List.mem_cons, not_or] at h
    exact (Near.int s h.1).trans (ih _ h.2)

/-- The operation whose coroutine is resumed by the executor. -/
def St.runs (s : St) : Ev → Option Tok
  | .run k => s.posted[k]?
  | _ => none

/-- A step leaves alone what it is not about. -/
theorem near_step {s : St} (hw : WF s none) {e : Ev} {t : Tok} (hn : t ∉ e.names) (hf : s.finds e ≠ some t)
    (hr : s.runs e ≠ some t) (hx : s.stat t ≠ .absent) : Near s (s.step e) t := by
  unfold St.step
  split
  · exact Near.refl s t
  · cases e with
    | mkR =>
      have h1 := hw.rnew s.nextR (Nat.le_refl _)
      cases t <;> (simp only [Near, St.stat] at *; grind)
    | mkW =>
      have h1 := hw.wnew s.nextW (Nat.le_refl _)
      cases t <;> (simp only [Near, St.stat] at *; grind)
    | awaitR j c x l =>
      simp only [Ev.names, List.mem_cons, not_or] at hn
      simp only [St.finds] at hf
      dsimp only
      rw [awaitR_eq]
      split
      · exact Near.refl s t
      · rename_i hfr
        simp only [ne_eq, Decidable.not_not] at hfr
        have h0 : Near s { s with log := s.log ++ [Obs.startR j] } t := by
          cases t <;> simp [Near]
        have hrr : St.readReady { s with log := s.log ++ [Obs.startR j] } = s.readReady := rfl
        dsimp only
        rw [hrr]
        split
        · exact h0.trans (Near.resumeR _ hn.1)
        · rename_i hrd
          simp only [not_or, Bool.not_eq_true] at hrd
          rw [if_pos ⟨hfr, hrd.1, hrd.2⟩] at hf
          split
          · refine h0.trans ?_
            cases t <;> (simp only [Near, St.queueR] at *; grind)
          · rename_i w rest hq
            have hne : t ≠ .w w := by
              intro h
              apply hf
              rw [hq, h]
              rfl
            split
            · refine h0.trans ((Near.trans ?_ (Near.hits _ _ ?_)).trans (Near.resumeW _ hne))
              · cases t <;> (simp only [Near, St.takeFrom, St.handR] at *; grind)
              · split
                · exact hn.2
                · simp
            · cases t <;> simp [Near]
    | awaitW j c x l =>
      simp only [Ev.names, List.mem_cons, not_or] at hn
      simp only [St.finds] at hf
      dsimp only
      rw [awaitW_eq]
      split
      · exact Near.refl s t
      · rename_i hfr
        simp only [ne_eq, Decidable.not_not] at hfr
        have h0 : Near s { s with log := s.log ++ [Obs.startW j] } t := by
          cases t <;> simp [Near]
        have hrr : St.writeReady { s with log := s.log ++ [Obs.startW j] } = s.writeReady := rfl
        dsimp only
        rw [hrr]
        split
        · exact h0.trans (Near.resumeW _ hn.1)
        · rename_i hrd
          simp only [not_or, Bool.not_eq_true] at hrd
          rw [if_pos ⟨hfr, hrd.1, hrd.2⟩] at hf
          split
          · refine h0.trans ?_
            cases t <;> (simp only [Near, St.queueW] at *; grind)
          · rename_i w rest hq
            have hne : t ≠ .r w := by
              intro h
              apply hf
              rw [hq, h]
              rfl
            split
            · refine h0.trans ((Near.trans ?_ (Near.hits _ _ ?_)).trans (Near.resumeR _ hne))
              · cases t <;> (simp only [Near, St.giveTo, St.handW] at *; grind)
              · split
                · exact hn.2
                · simp
            · cases t <;> simp [Near]
    | run k =>
      simp only [St.runs] at hr
      dsimp only
      unfold St.run
      split
      · exact Near.refl s t
      · rename_i i hk
        refine Near.trans ?_ (Near.resumeR _ (by rintro rfl; exact hr hk))
        cases t <;> simp [Near]
      · rename_i i hk
        refine Near.trans ?_ (Near.resumeW _ (by rintro rfl; exact hr hk))
        cases t <;> simp [Near]
    | cancelR i =>
      simp only [Ev.names, List.mem_singleton] at hn
      dsimp only
      unfold St.cancelR
      split
      · cases t <;> (simp only [Near] at *; grind)
      · exact Near.refl s t
    | cancelW i =>
      simp only [Ev.names, List.mem_singleton] at hn
      dsimp only
      unfold St.cancelW
      split
      · cases t <;> (simp only [Near] at *; grind)
      · exact Near.refl s t
    | intR i =>
      simp only [Ev.names, List.mem_singleton] at hn
      exact Near.int s (x := .r i) hn
    | intW i =>
      simp only [Ev.names, List.mem_singleton] at hn
      exact Near.int s (x := .w i) hn
    | dropR i =>
      simp only [Ev.names, List.mem_singleton] at hn
      dsimp only
      unfold St.dropR
      split
      · cases t <;> (simp only [Near] at *; grind)
      · exact Near.refl s t
    | dropW i =>
      simp only [Ev.names, List.mem_singleton] at hn
      dsimp only
      unfold St.dropW
      split
      · cases t <;> (simp only [Near] at *; grind)
      · exact Near.refl s t
    | close =>
      dsimp only
      unfold St.close
      cases t <;> (simp only [Near] at *; grind)

/-- `t` is suspended in a race and nothing has been given to it or taken from it. -/
def Fine (s : St) : Tok → Prop
  | .r i => (s.R i).status = .susp ∧ (s.R i).direct = none ∧ (s.R i).txn = true ∧ ∀ w, Obs.doneR i (.value w) ∉ s.log
  | .w i => (s.W i).status = .susp ∧ (s.W i).direct = false ∧ (s.W i).txn = true ∧ Obs.doneW i .ok ∉ s.log

/-- `t` can only fail any more. -/
def Dead (s : St) : Tok → Prop
  | .r i => (s.R i).status ≠ .fresh ∧ (s.R i).status ≠ .absent ∧ (s.R i).cancelled = true ∧ (s.R i).direct = none ∧
      (s.R i).waiting = false ∧ ∀ w, Obs.doneR i (.value w) ∉ s.log
  | .w i => (s.W i).status ≠ .fresh ∧ (s.W i).status ≠ .absent ∧ (s.W i).cancelled = true ∧ (s.W i).direct = false ∧
      (s.W i).waiting = false ∧ Obs.doneW i .ok ∉ s.log

theorem Near.stat {s s' : St} {t : Tok} (h : Near s s' t) : s'.stat t = s.stat t := by
  cases t <;> exact h.1

theorem Near.fine {s s' : St} {t : Tok} (h : Near s s' t) (hf : Fine s t) : Fine s' t := by
  cases t <;> (simp only [Near, Fine] at *; grind)

theorem Near.dead {s s' : St} {t : Tok} (h : Near s s' t) (hf : Dead s t) : Dead s' t := by
  cases t <;> (simp only [Near, Dead] at *; grind)

theorem Fine.stat {s : St} {t : Tok} (h : Fine s t) : s.stat t = .susp := by cases t <;> exact h.1

theorem Dead.failed {s : St} {t : Tok} (h : Dead s t) : ¬s.succeeded t := by
  cases t <;> (simp only [Dead, St.succeeded] at *; grind)

theorem Dead.resume {s : St} {t : Tok} (h : Dead s t) :
    match t with
    | .r i => Dead (s.resumeR i) t
    | .w i => Dead (s.resumeW i) t := by
  cases t with
  | r i =>
    simp only [Dead] at h
    simp only [St.resumeR]
    split
    · simp only [Dead, St.endR]; grind
    · rw [if_pos h.2.2.1]; simp only [Dead, St.endR]; grind
  | w i =>
    simp only [Dead] at h
    simp only [St.resumeW]
    split
    · simp only [Dead, St.endW]; grind
    · rw [if_pos h.2.2.1]; simp only [Dead, St.endW]; grind

theorem Dead.int {s : St} {t : Tok} (h : Dead s t) (x : Tok) : Dead (s.int x) t := by
  by_cases hx : t = x
  · subst hx
    cases t with
    | r j =>
      simp only [St.int, intR_eq]
      split
      · exact h
      · split <;> (simp only [Dead, St.endR] at *; grind)
    | w j =>
      simp only [St.int, intW_eq]
      split
      · exact h
      · split <;> (simp only [Dead, St.endW] at *; grind)
  · exact (Near.int s hx).dead h

theorem Dead.hits (ts : List Tok) {t : Tok} : ∀ {s : St}, Dead s t → Dead (ts.foldl St.int s) t := by
  induction ts with
  | nil => exact fun h => h
  | cons x ts ih => exact fun h => ih (h.int x)

/-- What is interrupted can only fail. -/
theorem Fine.int {s : St} {t : Tok} (h : Fine s t) : Dead (s.int t) t := by
  cases t with
  | r j =>
    simp only [St.int, intR_eq]
    split
    · simp only [Fine] at h; grind
    · split <;> (simp only [Dead, Fine, St.endR] at *; grind)
  | w j =>
    simp only [St.int, intW_eq]
    split
    · simp only [Fine] at h; grind
    · split <;> (simp only [Dead, Fine, St.endW] at *; grind)

theorem Fine.hits (ts : List Tok) {t : Tok} : ∀ {s : St}, Fine s t → t ∈ ts → Dead (ts.foldl St.int s) t := by
  induction ts with
  | nil => intro s _ h; cases h
  | cons x ts ih =>
    intro s h hm
    rw [List.foldl_cons]
    by_cases hx : t = x
    · subst hx; exact h.int.hits ts
    · exact ih ((Near.int s hx).fine h) (by simpa [hx] using hm)

/-- Whatever happens. -/
theorem Dead.step {s : St} (hw : WF s none) {t : Tok} (h : Dead s t) (e : Ev) : Dead (s.step e) t := by
  have hx : s.stat t ≠ .absent := by cases t <;> exact h.2.1
  by_cases hr : s.runs e = some t
  · cases e with
    | run k =>
      simp only [St.step, St.runs] at *
      split
      · exact h
      · unfold St.run
        rw [hr]
        cases t with
        | r i => exact Dead.resume (t := .r i) (s := { s with posted := s.posted.eraseIdx k }) h
        | w i => exact Dead.resume (t := .w i) (s := { s with posted := s.posted.eraseIdx k }) h
    | _ => cases hr
  · by_cases hn : t ∈ e.names ∨ s.finds e = some t
    · unfold St.step
      split
      · exact h
      · cases e with
        | awaitR j c x l =>
          dsimp only
          rw [awaitR_eq]
          split
          · exact h
          · rename_i hfr
            simp only [ne_eq, Decidable.not_not] at hfr
            have hj : t ≠ .r j := by rintro rfl; exact h.1 hfr
            have h0 : Dead { s with log := s.log ++ [Obs.startR j] } t := by
              cases t <;> (simp only [Dead] at *; grind)
            dsimp only
            split
            · exact (Near.resumeR _ hj).dead h0
            · split
              · refine Near.dead ?_ h0
                cases t <;> (simp only [Near, St.queueR] at *; grind)
              · rename_i w rest hq
                split
                · rename_i hwt
                  have hne : t ≠ .w w := by rintro rfl; simp only [Dead] at h; rw [h.2.2.2.2.1] at hwt; cases hwt
                  refine (Near.resumeW _ hne).dead (Dead.hits _ (Near.dead ?_ h0))
                  cases t <;> (simp only [Near, St.takeFrom, St.handR] at *; grind)
                · cases t <;> exact h0
        | awaitW j c x l =>
          dsimp only
          rw [awaitW_eq]
          split
          · exact h
          · rename_i hfr
            simp only [ne_eq, Decidable.not_not] at hfr
            have hj : t ≠ .w j := by rintro rfl; exact h.1 hfr
            have h0 : Dead { s with log := s.log ++ [Obs.startW j] } t := by
              cases t <;> (simp only [Dead] at *; grind)
            dsimp only
            split
            · exact (Near.resumeW _ hj).dead h0
            · split
              · refine Near.dead ?_ h0
                cases t <;> (simp only [Near, St.queueW] at *; grind)
              · rename_i w rest hq
                split
                · rename_i hwt
                  have hne : t ≠ .r w := by rintro rfl; simp only [Dead] at h; rw [h.2.2.2.2.1] at hwt; cases hwt
                  refine (Near.resumeR _ hne).dead (Dead.hits _ (Near.dead ?_ h0))
                  cases t <;> (simp only [Near, St.giveTo, St.handW] at *; grind)
                · cases t <;> exact h0
        | intR i => exact h.int (.r i)
        | intW i => exact h.int (.w i)
        | cancelR i =>
          dsimp only
          unfold St.cancelR
          split
          · cases t <;> (simp only [Dead] at *; grind)
          · exact h
        | cancelW i =>
          dsimp only
          unfold St.cancelW
          split
          · cases t <;> (simp only [Dead] at *; grind)
          · exact h
        | dropR i =>
          dsimp only
          unfold St.dropR
          split
          · cases t <;> (simp only [Dead] at *; grind)
          · exact h
        | dropW i =>
          dsimp only
          unfold St.dropW
          split
          · cases t <;> (simp only [Dead] at *; grind)
          · exact h
        | _ => simp [Ev.names, St.finds] at hn
    · simp only [not_or] at hn
      exact (near_step hw hn.1 hn.2 hr hx).dead h

theorem wakeWriter_stat (s : St) (t : Tok) : s.wakeWriter.stat t = s.stat t := (Near.wakeWriter s t).stat
theorem wakeReader_stat (s : St) (t : Tok) : s.wakeReader.stat t = s.stat t := (Near.wakeReader s t).stat

/-- A coroutine that is resumed leaves `await_resume`. -/
theorem resumeR_done (s : St) (i : Nat) : (s.resumeR i).ub = true ∨ (s.resumeR i).stat (.r i) = .done := by
  unfold St.resumeR
  split
  · right; simp [St.stat, St.endR, upd_apply]
  · split
    · right; simp [St.stat, St.endR, upd_apply]
    · split
      · left; rfl
      all_goals
        right
        rw [wakeWriter_stat]
        simp [St.stat, St.endR, upd_apply]

theorem resumeW_done (s : St) (i : Nat) : (s.resumeW i).stat (.w i) = .done := by
  unfold St.resumeW
  split
  · simp [St.stat, St.endW, upd_apply]
  · split
    · simp [St.stat, St.endW, upd_apply]
    · split
      all_goals
        rw [wakeReader_stat]
        simp [St.stat, St.endW, upd_apply]

/-- The executor resumes an operation: its await ends. -/
theorem runs_done {s : St} {e : Ev} {t : Tok} (hr : s.runs e = some t) :
    (s.step e).ub = true ∨ (s.step e).stat t = .done := by
  cases e with
  | run k =>
    simp only [St.step, St.runs] at *
    split
    · left; assumption
    · unfold St.run
      rw [hr]
      cases t with
      | r i => exact resumeR_done _ i
      | w i => exact Or.inr (resumeW_done _ i)
  | _ => cases hr

/-- An operation that is found waiting: its await ends, and the operations of its race can only fail. -/
theorem found {s : St} {e : Ev} {t : Tok} (hu : s.ub = false) (hf : s.finds e = some t) (hwt : s.awaited t = true)
    (ht : Fine s t) (hits : List Tok) :
    ((s.step (e.hitting hits)).ub = true ∨ (s.step (e.hitting hits)).stat t = .done) ∧
    ∀ x ∈ hits, x ≠ t → Fine s x → Dead (s.step (e.hitting hits)) x := by
  cases e with
  | awaitR j c z l =>
    simp only [St.finds] at hf
    split at hf
    · rename_i hc
      cases hq : s.wq with
      | nil => rw [hq] at hf; cases hf
      | cons w rest =>
        rw [hq] at hf
        cases hf
        simp only [Fine] at ht
        have hwt : (s.W w).waiting = true := hwt
        simp only [Ev.hitting, St.step, hu, Bool.false_eq_true, if_false]
        rw [awaitR_eq, if_neg (by simp [hc.1])]
        dsimp only
        have hrr : St.readReady { s with log := s.log ++ [Obs.startR j] } = s.readReady := rfl
        rw [hrr, if_neg (by simp [hc.2.1, hc.2.2]), hq]
        dsimp only
        rw [if_pos hwt, if_pos ht.2.2.1]
        refine ⟨Or.inr (resumeW_done _ w), fun x hx hxt hxf => ?_⟩
        have hxj : x ≠ .r j := by
          rintro rfl
          have := hxf.1
          rw [hc.1] at this
          cases this
        refine (Near.resumeW _ hxt).dead (Fine.hits _ ?_ hx)
        refine Near.fine (s := s) ?_ hxf
        cases x <;> (simp only [Near, St.takeFrom, St.handR] at *; grind)
    · cases hf
  | awaitW j c z l =>
    simp only [St.finds] at hf
    split at hf
    · rename_i hc
      cases hq : s.rq with
      | nil => rw [hq] at hf; cases hf
      | cons w rest =>
        rw [hq] at hf
        cases hf
        simp only [Fine] at ht
        have hwt : (s.R w).waiting = true := hwt
        simp only [Ev.hitting, St.step, hu, Bool.false_eq_true, if_false]
        rw [awaitW_eq, if_neg (by simp [hc.1])]
        dsimp only
        have hrr : St.writeReady { s with log := s.log ++ [Obs.startW j] } = s.writeReady := rfl
        rw [hrr, if_neg (by simp [hc.2.1, hc.2.2]), hq]
        dsimp only
        rw [if_pos hwt, if_pos ht.2.2.1]
        refine ⟨resumeR_done _ w, fun x hx hxt hxf => ?_⟩
        have hxj : x ≠ .w j := by
          rintro rfl
          have := hxf.1
          rw [hc.1] at this
          cases this
        refine (Near.resumeR _ hxt).dead (Fine.hits _ ?_ hx)
        refine Near.fine (s := s) ?_ hxf
        cases x <;> (simp only [Near, St.giveTo, St.handW] at *; grind)
    · cases hf
  | _ => cases hf

/-- A branch that does not find the other side waiting either ends or waits. -/
theorem started {s : St} (htk : TK s none) {t : Tok} (hs : s.stat t = .fresh) (hw : WF s none)
    (hf : s.finds t.await = none) : (s.step t.await).ub = true ∨ (s.step t.await).stat t = .done ∨
      Fine (s.step t.await) t := by
  cases hu : s.ub with
  | true => left; simp [St.step, hu]
  | false =>
    cases t with
    | r i =>
      simp only [St.stat] at hs
      simp only [Tok.await, St.finds] at hf
      simp only [Tok.await, St.step, hu, Bool.false_eq_true, if_false]
      rw [awaitR_eq, if_neg (by simp [hs])]
      dsimp only
      have hrr : St.readReady { s with log := s.log ++ [Obs.startR i] } = s.readReady := rfl
      rw [hrr]
      split
      · rcases resumeR_done { s with log := s.log ++ [Obs.startR i] } i with h | h
        · exact Or.inl h
        · exact Or.inr (Or.inl h)
      · rename_i hrd
        simp only [not_or, Bool.not_eq_true] at hrd
        rw [if_pos ⟨hs, hrd⟩] at hf
        have hq : s.wq = [] := by simpa using hf
        rw [hq]
        right; right
        have h1 := hw.rfresh i hs
        have h2 := fun res h => htk.endR i res h
        simp only [Fine, St.queueR]
        grind
    | w i =>
      simp only [St.stat] at hs
      simp only [Tok.await, St.finds] at hf
      simp only [Tok.await, St.step, hu, Bool.false_eq_true, if_false]
      rw [awaitW_eq, if_neg (by simp [hs])]
      dsimp only
      have hrr : St.writeReady { s with log := s.log ++ [Obs.startW i] } = s.writeReady := rfl
      rw [hrr]
      split
      · exact Or.inr (Or.inl (resumeW_done { s with log := s.log ++ [Obs.startW i] } i))
      · rename_i hrd
        simp only [not_or, Bool.not_eq_true] at hrd
        rw [if_pos ⟨hs, hrd⟩] at hf
        have hq : s.rq = [] := by simpa using hf
        rw [hq]
        right; right
        have h1 := hw.wfresh i hs
        have h2 := fun res h => htk.endW i res h
        simp only [Fine, St.queueW]
        grind

theorem Fine.cancel {s : St} {t : Tok} (h : Fine s t) : Fine (s.step t.cancel) t := by
  unfold St.step
  split
  · exact h
  · cases t <;> (simp only [Tok.cancel, St.cancelR, St.cancelW]; split <;> (simp only [Fine] at *; grind))

theorem Fine.hit {s : St} {t : Tok} (h : Fine s t) (hu : s.ub = false) : Dead (s.step t.int) t := by
  cases t with
  | r i => simp only [Tok.int, St.step, hu, Bool.false_eq_true, if_false]; exact h.int
  | w i => simp only [Tok.int, St.step, hu, Bool.false_eq_true, if_false]; exact h.int

end Cobalt.Chan
