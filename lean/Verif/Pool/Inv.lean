import Verif.Pool.Spec
import Verif.Pool.Plain
/-! Helper: every coroutine is running, away, suspended on one operation, or has ended. -/
namespace Cobalt.Pool

open Chan (Tok Status Pl Tr lastTok upd upd_apply)

def made (c : Chan.St) : Tok → Prop
  | .r i => i < c.nextR
  | .w i => i < c.nextW

/-- A producer that has written all its jobs. -/
def St.finished (s : St) : Co → Prop
  | .w _ => False
  | .p i => s.todo i = 0

structure PInv (s : St) : Prop where
  pl : Pl s.ch
  lt : ∀ t, made s.ch t → s.started (s.own t)
  curLt : ∀ c, s.cur = some c → s.started c
  awayLt : ∀ c ∈ s.away, s.started c
  free : ∀ t, s.ch.tstat t = .susp → s.cur ≠ some (s.own t) ∧ s.own t ∉ s.away
  uniq : ∀ t u, s.ch.tstat t = .susp → s.ch.tstat u = .susp → s.own t = s.own u → t = u
  one : ∀ c, s.cur = some c → c ∉ s.away
  nd : s.away.Nodup
  place : ∀ c, s.started c →
    s.cur = some c ∨ c ∈ s.away ∨ (∃ t, s.ch.tstat t = .susp ∧ s.own t = c) ∨ s.finished c
  jobs : ∀ j, j < s.ch.nextW → (s.ch.W j).status = .susp ∨ Chan.Obs.doneW j .ok ∈ s.ch.log

theorem PInv.init (cap : Nat) : PInv (St.init cap) := by
  refine ⟨Pl.init cap, ?_, by simp [St.init], by simp [St.init], ?_, ?_, by simp [St.init], by simp [St.init], ?_,
    by simp [St.init, Chan.St.init]⟩
  · intro t ht; cases t <;> simp [made, St.init, Chan.St.init] at ht
  · intro t ht; cases t <;> simp [Chan.St.tstat, St.init, Chan.St.init] at ht
  · intro t u ht; cases t <;> simp [Chan.St.tstat, St.init, Chan.St.init] at ht
  · intro c hc; cases c <;> simp [St.started, St.init] at hc

theorem susp_made {c : Chan.St} (h : Pl c) {t : Tok} (ht : c.tstat t = .susp) : made c t := by
  cases t with
  | r i =>
    refine Classical.byContradiction fun hn => ?_
    have := h.wf.rnew i (Nat.le_of_not_lt hn)
    simp [Chan.St.tstat, this] at ht
  | w i =>
    refine Classical.byContradiction fun hn => ?_
    have := h.wf.wnew i (Nat.le_of_not_lt hn)
    simp [Chan.St.tstat, this] at ht

theorem next_eq (s : St) (c : Chan.St) : s.next c = (lastTok c.log).map s.own := by
  unfold St.next lastTok
  split <;> simp_all [St.own]

/-- The channel has moved on: the running coroutine has awaited `a`, or nobody was running and the executor has resumed
somebody. -/
theorem PInv.move {s s' : St} {a : Option Tok} {c0 : Chan.St} (h : PInv s) (pl : Pl s'.ch) (tr : Tr c0 s'.ch a)
    (plc : Pl c0) (hlog : c0.log = s.ch.log) (hnew : ∀ j, j < s'.ch.nextW → j < s.ch.nextW ∨ a = some (.w j))
    (hst : ∀ t, c0.tstat t = .susp ↔ s.ch.tstat t = .susp)
    (hcur : s'.cur = (lastTok s'.ch.log).map s'.own) (haw : s'.away = s.away)
    (hstart : ∀ c, s'.started c ↔ s.started c)
    (hfin : ∀ c, s.finished c → s.cur ≠ some c → s'.finished c)
    (hown : ∀ t, s.ch.tstat t = .susp → s'.own t = s.own t)
    (hlt : ∀ t, made s'.ch t → s.started (s'.own t))
    (ha : (∀ t, a = some t → s.cur = some (s'.own t)) ∧ (a = none → s.cur = none)) : PInv s' := by
  have act : ∀ t, c0.tstat t = .susp ∨ a = some t → (s.ch.tstat t = .susp ∧ s'.own t = s.own t) ∨
      (a = some t ∧ s.cur = some (s'.own t)) := fun t ht => by
    rcases ht with ht | ht
    · have := (hst t).1 ht
      exact .inl ⟨this, hown t this⟩
    · exact .inr ⟨ht, ha.1 t ht⟩
  have un : ∀ t u, (c0.tstat t = .susp ∨ a = some t) → (c0.tstat u = .susp ∨ a = some u) → s'.own t = s'.own u →
      t = u := fun t u ht hu he => by
    rcases act t ht with h1 | h1 <;> rcases act u hu with h2 | h2
    · exact h.uniq t u h1.1 h2.1 (by rw [← h1.2, ← h2.2, he])
    · exact absurd (by rw [h2.2, ← he, h1.2]) (h.free t h1.1).1
    · exact absurd (by rw [h1.2, he, h2.2]) (h.free u h2.1).1
    · have := h1.1.symm.trans h2.1
      simpa using this
  have aw : ∀ t, (c0.tstat t = .susp ∨ a = some t) → s'.own t ∉ s.away := fun t ht => by
    rcases act t ht with h1 | h1
    · rw [h1.2]; exact (h.free t h1.1).2
    · exact h.one _ h1.2
  refine ⟨pl, fun t ht => (hstart _).2 (hlt t ht), ?_, ?_, ?_, ?_, ?_, by rw [haw]; exact h.nd, ?_, ?_⟩
  · intro c hc
    rw [hcur] at hc
    cases hl : lastTok s'.ch.log with
    | none => rw [hl] at hc; cases hc
    | some t =>
      rw [hl] at hc
      obtain rfl : s'.own t = c := by simpa using hc
      rcases act t (tr.was t hl) with h1 | h1
      · rw [hstart, h1.2]; exact h.lt t (susp_made h.pl h1.1)
      · rw [hstart]; exact h.curLt _ h1.2
  · intro c hc
    rw [haw] at hc
    exact (hstart c).2 (h.awayLt c hc)
  · intro t ht
    have h1 := (tr.susp t).1 ht
    refine ⟨fun hc => ?_, by rw [haw]; exact aw t h1.1⟩
    rw [hcur] at hc
    cases hl : lastTok s'.ch.log with
    | none => rw [hl] at hc; cases hc
    | some u =>
      rw [hl] at hc
      have he : s'.own u = s'.own t := by simpa using hc
      have := un u t (tr.was u hl) h1.1 he
      exact h1.2 (by rw [hl, this])
  · intro t u ht hu he
    exact un t u ((tr.susp t).1 ht).1 ((tr.susp u).1 hu).1 he
  · intro c hc
    rw [hcur] at hc
    cases hl : lastTok s'.ch.log with
    | none => rw [hl] at hc; cases hc
    | some t =>
      rw [hl] at hc
      obtain rfl : s'.own t = c := by simpa using hc
      rw [haw]
      exact aw t (tr.was t hl)
  · intro c hc
    have key : ∀ t, (c0.tstat t = .susp ∨ a = some t) → s'.own t = c → s'.cur = some c ∨
        ∃ t, s'.ch.tstat t = .susp ∧ s'.own t = c := fun t ht he => by
      by_cases hl : lastTok s'.ch.log = some t
      · left; rw [hcur, hl]; simp [he]
      · exact .inr ⟨t, (tr.susp t).2 ⟨ht, hl⟩, he⟩
    have pack : (s'.cur = some c ∨ ∃ t, s'.ch.tstat t = .susp ∧ s'.own t = c) →
        s'.cur = some c ∨ c ∈ s'.away ∨ (∃ t, s'.ch.tstat t = .susp ∧ s'.own t = c) ∨ s'.finished c := fun h => by
      rcases h with h | h
      · exact .inl h
      · exact .inr (.inr (.inl h))
    by_cases hcc : s.cur = some c
    · cases ha' : a with
      | none => rw [ha.2 ha'] at hcc; cases hcc
      | some t =>
        have := ha.1 t ha'
        rw [hcc] at this
        exact pack (key t (.inr ha') (by simpa using this.symm))
    · rcases h.place c ((hstart c).1 hc) with h1 | h1 | ⟨t, h1, h2⟩ | h1
      · exact absurd h1 hcc
      · right; left; rw [haw]; exact h1
      · exact pack (key t (.inl ((hst t).2 h1)) ((hown t h1).trans h2))
      · exact .inr (.inr (.inr (hfin c h1 hcc)))
  · intro j hj
    have go : (c0.tstat (.w j) = .susp ∨ a = some (.w j)) →
        (s'.ch.W j).status = .susp ∨ Chan.Obs.doneW j .ok ∈ s'.ch.log := fun hh => by
      by_cases hl : lastTok s'.ch.log = some (.w j)
      · exact .inr (tr.ok j hl (plc.wcl j) (plc.wc j))
      · exact .inl ((tr.susp (.w j)).2 ⟨hh, hl⟩)
    rcases hnew j hj with h1 | h1
    · rcases h.jobs j h1 with h2 | h2
      · exact go (.inl ((hst (.w j)).2 h2))
      · exact .inr (tr.log _ (by rw [hlog]; exact h2))
    · exact go (.inr h1)

theorem PInv.goW {s : St} (h : PInv s) {i : Nat} (hc : s.cur = some (.w i)) :
    (s.goOn (.w i)).ch.ub = true ∨ PInv (s.goOn (.w i)) := by
  rcases h.pl.read true with h1 | ⟨h1, h2⟩
  · exact .inl h1
  · right
    have hn : s.ch.tstat (.r s.ch.nextR) ≠ .susp := by
      simp [Chan.St.tstat, h.pl.wf.rnew _ (Nat.le_refl _)]
    have hnR : (s.ch.step .mkR).nextR = s.ch.nextR + 1 := by simp [Chan.St.step, h.pl.ub]
    have hnW : (s.ch.step .mkR).nextW = s.ch.nextW := by simp [Chan.St.step, h.pl.ub]
    refine h.move (s' := s.goOn (.w i)) h1 h2 h.pl.mkR (by simp [Chan.St.step, h.pl.ub])
      (fun j hj => .inl (by have := h2.nW.trans hnW; simpa [St.goOn, this] using hj)) (Chan.mkR_stat h.pl) ?_ rfl (fun c => by cases c <;> exact Iff.rfl)
      (fun c hf _ => by cases c <;> exact hf) ?_ ?_ ⟨?_, by simp⟩
    · simp only [St.goOn]; rw [next_eq]; rfl
    · intro t ht
      cases t with
      | w j => rfl
      | r j =>
        have : j ≠ s.ch.nextR := fun e => hn (e ▸ ht)
        simp [St.own, St.goOn, upd_apply, this]
    · intro t ht
      cases t with
      | w j =>
        have e : (s.goOn (.w i)).ch.nextW = s.ch.nextW := h2.nW.trans hnW
        have hj : j < s.ch.nextW := by simpa [made, e] using ht
        exact h.lt (.w j) hj
      | r j =>
        have e : (s.goOn (.w i)).ch.nextR = s.ch.nextR + 1 := h2.nR.trans hnR
        have hj : j < s.ch.nextR + 1 := by simpa [made, e] using ht
        by_cases hjn : j = s.ch.nextR
        · have : (s.goOn (.w i)).own (.r j) = .w i := by simp [St.own, St.goOn, upd_apply, hjn]
          rw [this]; exact h.curLt _ hc
        · have : (s.goOn (.w i)).own (.r j) = s.own (.r j) := by simp [St.own, St.goOn, upd_apply, hjn]
          rw [this]; exact h.lt (.r j) (by simp only [made]; omega)
    · intro t ht
      cases ht
      rw [hc]; simp [St.own, St.goOn, upd_apply]

theorem PInv.goP {s : St} (h : PInv s) {i : Nat} (hc : s.cur = some (.p i)) :
    (s.goOn (.p i)).ch.ub = true ∨ PInv (s.goOn (.p i)) := by
  by_cases h0 : s.todo i = 0
  · right
    have e : s.goOn (.p i) = { s with cur := none } := by simp [St.goOn, h0]
    rw [e]
    refine ⟨h.pl, h.lt, by simp, h.awayLt, fun t ht => ⟨by simp, (h.free t ht).2⟩, h.uniq, by simp, h.nd, fun c hs => ?_, h.jobs⟩
    rcases h.place c hs with h1 | h1 | h1 | h1
    · rw [hc] at h1
      obtain rfl : Co.p i = c := by simpa using h1
      exact .inr (.inr (.inr h0))
    · exact .inr (.inl h1)
    · exact .inr (.inr (.inl h1))
    · exact .inr (.inr (.inr h1))
  · have e : s.goOn (.p i) = { s with
        ch := s.ch.steps [.mkW, .awaitW s.ch.nextW true false []]
        ownW := upd s.ownW s.ch.nextW i
        todo := upd s.todo i (s.todo i - 1)
        cur := ({ s with ownW := upd s.ownW s.ch.nextW i, todo := upd s.todo i (s.todo i - 1) } : St).next
          (s.ch.steps [.mkW, .awaitW s.ch.nextW true false []]) } := by
      simp [St.goOn, h0]
    rcases h.pl.write true with h1 | ⟨h1, h2⟩
    · left; rw [e]; exact h1
    · right
      have hn : s.ch.tstat (.w s.ch.nextW) ≠ .susp := by
        simp [Chan.St.tstat, h.pl.wf.wnew _ (Nat.le_refl _)]
      have hnR : (s.ch.step .mkW).nextR = s.ch.nextR := by simp [Chan.St.step, h.pl.ub]
      have hnW : (s.ch.step .mkW).nextW = s.ch.nextW + 1 := by simp [Chan.St.step, h.pl.ub]
      rw [e]
      refine h.move (a := some (.w s.ch.nextW)) h1 h2 h.pl.mkW (by simp [Chan.St.step, h.pl.ub])
        (fun j hj => ?_) (Chan.mkW_stat h.pl) ?_ rfl
        (fun c => by cases c <;> exact Iff.rfl) (fun c hf hcc => ?_) ?_ ?_ ⟨?_, by simp⟩
      · have e : (s.ch.steps [.mkW, .awaitW s.ch.nextW true false []]).nextW = s.ch.nextW + 1 := h2.nW.trans hnW
        have hj' : j < s.ch.nextW + 1 := by simpa [e] using hj
        by_cases hjn : j = s.ch.nextW
        · exact .inr (by rw [hjn])
        · exact .inl (by omega)
      · dsimp only; rw [next_eq]; rfl
      · cases c with
        | w j => exact hf
        | p j =>
          have : j ≠ i := fun e => hcc (by rw [hc, e])
          simp only [St.finished, upd_apply, this, if_false]; exact hf
      · intro t ht
        cases t with
        | r j => rfl
        | w j =>
          have : j ≠ s.ch.nextW := fun e => hn (e ▸ ht)
          simp [St.own, upd_apply, this]
      · intro t ht
        cases t with
        | r j =>
          have e : (s.ch.steps [.mkW, .awaitW s.ch.nextW true false []]).nextR = s.ch.nextR := h2.nR.trans hnR
          have hj : j < s.ch.nextR := by simpa [made, e] using ht
          exact h.lt (.r j) hj
        | w j =>
          have e : (s.ch.steps [.mkW, .awaitW s.ch.nextW true false []]).nextW = s.ch.nextW + 1 := h2.nW.trans hnW
          have hj : j < s.ch.nextW + 1 := by simpa [made, e] using ht
          by_cases hjn : j = s.ch.nextW
          · simp only [St.own, upd_apply, hjn, if_true]; exact h.curLt _ hc
          · simp only [St.own, upd_apply, hjn, if_false]
            exact h.lt (.w j) (by simp only [made]; omega)
      · intro t ht
        cases ht
        rw [hc]; simp [St.own, upd_apply]

theorem nodup_append_one {c : Co} {l : List Co} (h : l.Nodup) (hc : c ∉ l) : (l ++ [c]).Nodup := by
  rw [List.nodup_append]
  refine ⟨h, by simp, ?_⟩
  intro a ha b hb e
  simp only [List.mem_singleton] at hb
  subst hb; subst e
  exact hc ha

theorem PInv.step {s : St} (h : PInv s) (e : Ev) : (s.step e).ch.ub = true ∨ PInv (s.step e) := by
  unfold St.step
  rw [if_neg (by simp [h.pl.ub])]
  split
  · rename_i hc
    right
    refine ⟨h.pl, fun t ht => ?_, ?_, fun c hc => ?_, fun t ht => ⟨?_, (h.free t ht).2⟩, h.uniq, ?_, h.nd, fun c hs => ?_,
      h.jobs⟩
    · have := h.lt t ht
      cases t <;> simp [St.started, St.own] at this ⊢ <;> omega
    · intro c hc
      obtain rfl : Co.w s.nw = c := by simpa using hc
      simp [St.started]
    · have := h.awayLt c hc
      cases c <;> simp [St.started] at this ⊢ <;> omega
    · have := h.lt t (susp_made h.pl ht)
      cases t <;> simp [St.own, St.started] at this ⊢
      exact fun e => absurd this (by omega)
    · intro c hc ha
      obtain rfl : Co.w s.nw = c := by simpa using hc
      have := h.awayLt _ ha
      simp [St.started] at this
    · by_cases e : c = .w s.nw
      · left; rw [e]
      · have hs' : s.started c := by
          cases c with
          | p j => exact hs
          | w j =>
            have hs : j < s.nw + 1 := hs
            have : j ≠ s.nw := fun h => e (h ▸ rfl)
            show j < s.nw; omega
        rcases h.place c hs' with h1 | h1 | h1 | h1
        · rw [hc] at h1; cases h1
        · exact .inr (.inl h1)
        · exact .inr (.inr (.inl h1))
        · exact .inr (.inr (.inr (by cases c <;> exact h1)))
  · rename_i n hc
    right
    refine ⟨h.pl, fun t ht => ?_, ?_, fun c hc => ?_, fun t ht => ⟨?_, (h.free t ht).2⟩, h.uniq, ?_, h.nd, fun c hs => ?_,
      h.jobs⟩
    · have := h.lt t ht
      cases t <;> simp [St.started, St.own] at this ⊢ <;> omega
    · intro c hc
      obtain rfl : Co.p s.np = c := by simpa using hc
      simp [St.started]
    · have := h.awayLt c hc
      cases c <;> simp [St.started] at this ⊢ <;> omega
    · have := h.lt t (susp_made h.pl ht)
      cases t <;> simp [St.own, St.started] at this ⊢
      exact fun e => absurd this (by omega)
    · intro c hc ha
      obtain rfl : Co.p s.np = c := by simpa using hc
      have := h.awayLt _ ha
      simp [St.started] at this
    · by_cases e : c = .p s.np
      · left; rw [e]
      · have hs' : s.started c := by
          cases c with
          | w j => exact hs
          | p j =>
            have hs : j < s.np + 1 := hs
            have : j ≠ s.np := fun h => e (h ▸ rfl)
            show j < s.np; omega
        rcases h.place c hs' with h1 | h1 | h1 | h1
        · rw [hc] at h1; cases h1
        · exact .inr (.inl h1)
        · exact .inr (.inr (.inl h1))
        · refine .inr (.inr (.inr ?_))
          cases c with
          | w j => exact h1
          | p j =>
            have : j ≠ s.np := fun h => e (h ▸ rfl)
            simp only [St.finished, upd_apply, this, if_false]; exact h1
  · rename_i c hc
    cases c with
    | w i => exact h.goW hc
    | p i => exact h.goP hc
  · rename_i c hc
    right
    refine ⟨h.pl, h.lt, by simp, fun d hd => ?_, fun t ht => ⟨by simp, ?_⟩, h.uniq, by simp,
      nodup_append_one h.nd (h.one c hc), fun d hs => ?_, h.jobs⟩
    · simp only [List.mem_append, List.mem_singleton] at hd
      rcases hd with hd | rfl
      · exact h.awayLt d hd
      · exact h.curLt d hc
    · have := h.free t ht
      simp only [List.mem_append, List.mem_singleton, not_or]
      exact ⟨this.2, fun e => this.1 (by rw [hc]; exact congrArg some e.symm)⟩
    · rcases h.place d hs with h1 | h1 | h1 | h1
      · rw [hc] at h1
        obtain rfl : c = d := by simpa using h1
        right; left; simp
      · right; left; simp [h1]
      · exact .inr (.inr (.inl h1))
      · exact .inr (.inr (.inr h1))
  · rename_i k hc
    split
    · rename_i c hk
      right
      have hm : c ∈ s.away := List.mem_of_getElem? hk
      have hlt : k < s.away.length := (List.getElem?_eq_some_iff.1 hk).1
      have hmem : ∀ d, d ∈ s.away ↔ d = c ∨ d ∈ s.away.eraseIdx k := fun d => by
        constructor
        · intro hd
          by_cases e : d = c
          · exact .inl e
          · right
            obtain ⟨m, hm1, hm2⟩ := List.mem_iff_getElem.1 hd
            rw [List.mem_eraseIdx_iff_getElem?]
            refine ⟨m, ?_, by rw [List.getElem?_eq_getElem hm1, hm2]⟩
            rintro rfl
            have : s.away[m] = c := by
              have := hk
              rw [List.getElem?_eq_getElem hm1] at this
              simpa using this
            exact e (hm2.symm.trans this)
        · rintro (rfl | hd)
          · exact hm
          · exact List.mem_of_mem_eraseIdx hd
      have hnc : c ∉ s.away.eraseIdx k := fun hd => by
        rw [List.mem_eraseIdx_iff_getElem?] at hd
        obtain ⟨m, hm1, hm2⟩ := hd
        have := (List.getElem?_inj (j := m) hlt h.nd).1 (hk.trans hm2.symm)
        exact hm1 this.symm
      refine ⟨h.pl, h.lt, ?_, fun d hd => h.awayLt d ((hmem d).2 (.inr hd)), fun t ht => ⟨fun e => ?_, fun hd => ?_⟩,
        h.uniq, ?_, h.nd.sublist (List.eraseIdx_sublist ..), fun d hs => ?_, h.jobs⟩
      · intro d hd
        obtain rfl : c = d := by simpa using hd
        exact h.awayLt c hm
      · have : c = s.own t := by cases t <;> simpa [St.own] using e
        exact (h.free t ht).2 (this ▸ hm)
      · exact (h.free t ht).2 ((hmem _).2 (.inr hd))
      · intro d hd
        obtain rfl : c = d := by simpa using hd
        exact hnc
      · rcases h.place d hs with h1 | h1 | h1 | h1
        · rw [hc] at h1; cases h1
        · rcases (hmem d).1 h1 with h2 | h2
          · left; rw [h2]
          · exact .inr (.inl h2)
        · exact .inr (.inr (.inl h1))
        · exact .inr (.inr (.inr h1))
    · exact .inr h
  · rename_i k hc
    split
    · rename_i hk
      rcases h.pl.run hk with h1 | ⟨h1, h2⟩
      · exact .inl h1
      · right
        refine h.move (a := none) h1 h2 h.pl rfl (fun j hj => .inl (by simpa [h2.nW] using hj)) (fun _ => Iff.rfl) ?_ rfl (fun c => by cases c <;> exact Iff.rfl)
          (fun c hf _ => by cases c <;> exact hf) (fun t _ => by cases t <;> rfl) ?_ ⟨by simp, fun _ => hc⟩
        · dsimp only; rw [next_eq]; congr 1
        · intro t ht
          cases t with
          | w j => exact h.lt (.w j) (by simpa [made, h2.nW] using ht)
          | r j => exact h.lt (.r j) (by simpa [made, h2.nR] using ht)
    · exact .inr h
  · exact .inr h

end Cobalt.Pool
