import Verif.Lock.Run
/-!
# Where the coroutines are after an event, if nobody is cancelled

Lemmas for `Verif/Order/…`: what `Inv.ready`, `Inv.full`, `Inv.leave` and `Inv.run` say about the phases.
-/
namespace Cobalt.Lock

open Chan (Status Tok upd)
open VChan (WF Obs Res)

/-- Nobody is cancelled. -/
def Calm (c : VChan.St) : Prop := ∀ i, (c.W i).cancelled = false

theorem acquire_ph {k : BitVec 64} {s : St} {l : List Nat} (h : Inv k s l) {u : Nat} (conn : Bool)
    (hu : u < s.users) (ho : s.ph u = .out) (hc : Calm s.ch) :
    (∃ p, (p = .inside ∨ ∃ i, p = .wait i) ∧ ∀ v, (s.step (.acquire u conn)).ph v = if v = u then p else s.ph v) ∧
    Calm (s.step (.acquire u conn)).ch ∧ (s.step (.acquire u conn)).ch.posted = s.ch.posted := by
  have hnew := h.fresh
  cases hr : s.ch.writeReady with
  | true =>
    have ec : (s.step (.acquire u conn)).ch =
        { s.ch with W := upd s.ch.W s.ch.nextW { status := .done }, nextW := s.ch.nextW + 1, n := s.ch.n + 1#64,
                    log := s.ch.log ++ [Obs.doneW s.ch.nextW .ok] } := by
      rw [← steps_ready h.ok conn hr]
      simp [St.step, St.events, hu, ho]
    refine ⟨⟨.inside, Or.inl rfl, fun v => ?_⟩, ?_, by rw [ec]⟩
    · show goOn (s.step (.acquire u conn)).ch (s.phase (.acquire u conn) v) = _
      rw [ec]
      simp only [St.phase, hu, ho, and_self, if_true]
      by_cases hv : v = u
      · simp [hv, goOn, VChan.upd_apply]
      · simp only [hv, if_false]
        refine goOn_eq (fun i hi => ?_) (h.stays v)
        have := h.wait v i hi
        have hne : i ≠ s.ch.nextW := by rintro rfl; rw [hnew] at this; cases this
        simp [VChan.upd_apply, hne, this]
    · intro i
      rw [ec]
      simp only [VChan.upd_apply]
      split
      · rfl
      · exact hc i
  | false =>
    have ec : (s.step (.acquire u conn)).ch =
        { s.ch with W := upd s.ch.W s.ch.nextW { status := .susp, waiting := true, slot := conn },
                    nextW := s.ch.nextW + 1, wq := s.ch.wq ++ [s.ch.nextW] } := by
      rw [← steps_full h.ok conn hr]
      simp [St.step, St.events, hu, ho]
    refine ⟨⟨.wait s.ch.nextW, Or.inr ⟨_, rfl⟩, fun v => ?_⟩, ?_, by rw [ec]⟩
    · show goOn (s.step (.acquire u conn)).ch (s.phase (.acquire u conn) v) = _
      rw [ec]
      simp only [St.phase, hu, ho, and_self, if_true]
      by_cases hv : v = u
      · simp [hv, goOn, VChan.upd_apply]
      · simp only [hv, if_false]
        refine goOn_eq (fun i hi => ?_) (h.stays v)
        have := h.wait v i hi
        have hne : i ≠ s.ch.nextW := by rintro rfl; rw [hnew] at this; cases this
        simp [VChan.upd_apply, hne, this]
    · intro i
      rw [ec]
      simp only [VChan.upd_apply]
      split
      · rfl
      · exact hc i

theorem release_ph {k : BitVec 64} {s : St} {l : List Nat} (h : Inv k s l) {u : Nat} (conn : Bool)
    (hu : u < s.users) (ho : s.ph u = .inside) (hc : Calm s.ch) :
    (∀ v, (s.step (.release u conn)).ph v = if v = u then .out else s.ph v) ∧
    Calm (s.step (.release u conn)).ch ∧
    (s.step (.release u conn)).ch.posted.length ≤ s.ch.posted.length + 1 := by
  have hm : u ∈ l := (h.mem u).2 ho
  have hpos : 0 < l.length := List.length_pos_of_mem hm
  have hr : s.ch.readReady = true := (readReady_iff h.ok).2 (by rw [h.cnt]; exact hpos)
  have ec : (s.step (.release u conn)).ch = s.ch.left.wakeWriter := by
    rw [← steps_leave h.ok conn hr]
    simp [St.step, St.events, hu, ho]
  have hlg : Obs.doneR s.ch.nextR .ok ∈ (s.step (.release u conn)).ch.log ∧
      ((s.step (.release u conn)).ch.R s.ch.nextR).status = .done ∧
      ∀ i, ((s.step (.release u conn)).ch.W i).status = (s.ch.W i).status ∧
        ((s.step (.release u conn)).ch.W i).cancelled = (s.ch.W i).cancelled := by
    rw [ec]
    rcases wake_eq (c := s.ch.left) h.ok.rq h.ok.link with e | ⟨w, rest, _, e⟩
    · rw [e]; simp [VChan.upd_apply]
    · rw [e]
      refine ⟨by simp, by simp [VChan.upd_apply], fun i => ?_⟩
      simp only [VChan.upd_apply]; split
      · rename_i e; rw [e]; exact ⟨rfl, rfl⟩
      · exact ⟨rfl, rfl⟩
  refine ⟨fun v => ?_, fun i => by rw [(hlg.2.2 i).2]; exact hc i, ?_⟩
  · show goOn (s.step (.release u conn)).ch (s.phase (.release u conn) v) = _
    simp only [St.phase, hu, ho, and_self, if_true]
    by_cases hv : v = u
    · simp [hv, goOn, hlg.1, hlg.2.1]
    · simp only [hv, if_false]
      refine goOn_eq (fun i hi => ?_) (h.stays v)
      rw [(hlg.2.2 i).1, h.wait v i hi]
  · rw [ec]
    rcases wake_eq (c := s.ch.left) h.ok.rq h.ok.link with e | ⟨w, rest, _, e⟩
    · rw [e]; simp
    · rw [e]; simp

theorem run_ph {k : BitVec 64} {s : St} {l : List Nat} (h : Inv k s l) (m : Nat) (hc : Calm s.ch) :
    (∀ v, (s.step (.run m)).ph v = s.ph v ∨ ((∃ i, s.ph v = .wait i) ∧ (s.step (.run m)).ph v = .inside)) ∧
    Calm (s.step (.run m)).ch ∧ (s.step (.run m)).ch.posted = s.ch.posted.eraseIdx m := by
  rcases hk : s.ch.posted[m]? with _ | t
  · have e : s.step (.run m) = s := h.idle _ (by
      show s.ch.steps [.run m] = _
      rw [steps_one]
      simp [VChan.St.step, h.ok.ub, VChan.St.run, hk]) rfl
    rw [e]
    exact ⟨fun _ => Or.inl rfl, hc, by rw [List.eraseIdx_of_length_le (List.getElem?_eq_none_iff.1 hk)]⟩
  · have hmem : t ∈ s.ch.posted := List.mem_of_getElem? hk
    cases t with
    | r i => exact absurd hmem (h.ok.postR i)
    | w i =>
      have hsusp := (h.ok.wf.wpost i hmem).1
      obtain ⟨u, hu⟩ := h.has i hsusp
      have ec0 : (s.step (.run m)).ch = s.ch.steps [.run m] := rfl
      rw [steps_run h.ok hk, if_neg (by rw [hc i]; simp)] at ec0
      refine ⟨fun v => ?_, fun j => ?_, by rw [ec0]⟩
      · show goOn (s.step (.run m)).ch (s.ph v) = _ ∨ _ ∧ goOn (s.step (.run m)).ch (s.ph v) = _
        by_cases hv : v = u
        · right
          subst hv
          refine ⟨⟨i, hu⟩, ?_⟩
          rw [ec0]
          simp [hu, goOn, VChan.upd_apply]
        · left
          refine goOn_eq (fun j hj => ?_) (h.stays v)
          have hne : j ≠ i := by rintro rfl; exact hv (h.one v u j hj hu)
          rw [ec0]
          simp [VChan.upd_apply, hne, h.wait v j hj]
      · rw [ec0]
        simp only [VChan.upd_apply]
        split
        · rename_i e; rw [e] at *; exact hc i
        · exact hc j

end Cobalt.Lock
