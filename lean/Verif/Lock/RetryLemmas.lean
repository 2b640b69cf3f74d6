import Verif.Lock.RetrySpec
import Verif.Lock.TurnLemmas
import Verif.Lock.LateProps
/-!
# Lemmas for C130
-/
namespace Cobalt.Lock

open Chan (Status Tok upd)
open VChan (WF Obs Res)

/-- What giving up in line does. -/
theorem quit_ph {k : BitVec 64} {s : St} {l : List Nat} (h : Inv k s l) {u i : Nat} (hw : Waits s u i) :
    Inv k (s.step (.timeout u)) l ∧ (∀ v, (s.step (.timeout u)).ph v = if v = u then .out else s.ph v) ∧
    (s.step (.timeout u)).ch.posted = s.ch.posted ∧ (s.step (.timeout u)).ch.n = s.ch.n := by
  have hp := hw.1
  have hsusp := h.wait u i hp
  have hq := h.ok.link i (h.inLine hw)
  have hev : s.events (.timeout u) = [.intW i, .dropW i] := by simp [St.events, hp]
  have ec : (s.step (.timeout u)).ch = s.ch.steps [.intW i, .dropW i] := by rw [← hev]; rfl
  rw [steps_quit h.ok hsusp hq] at ec
  refine ⟨(h.timeout u).1, fun v => ?_, by rw [ec], by rw [ec]⟩
  show goOn (s.step (.timeout u)).ch (s.ph v) = _
  rw [ec]
  by_cases hv : v = u
  · subst hv
    simp only [hp, goOn, VChan.upd_apply, if_true]
    rw [if_pos (by simp), if_neg]
    simp only [List.mem_append, List.mem_singleton, not_or]
    refine ⟨fun hx => ?_, by simp⟩
    have := h.ok.logW i _ hx
    rw [hsusp] at this; simp at this
  · simp only [hv, if_false]
    refine goOn_eq (fun j hj => ?_) (h.stays v)
    have hne : j ≠ i := by rintro rfl; exact hv (h.one v u j hj hp)
    simp [VChan.upd_apply, hne, h.wait v j hj]

/-- What giving up after the wake-up does: nothing yet. -/
theorem spurn_ph {k : BitVec 64} {s : St} {l : List Nat} (h : Inv k s l) {u i : Nat} (hp : s.ph u = .wait i)
    (hw : Tok.w i ∈ s.ch.posted) :
    (s.step (.timeout u)).ch = { s.ch with W := upd s.ch.W i { s.ch.W i with cancelled := true } } ∧
    (s.step (.timeout u)).ph = s.ph := by
  have hsusp := h.wait u i hp
  have hq : (s.ch.W i).waiting = false := (h.ok.wf.wpost i hw).2.1
  have hev : s.events (.timeout u) = [.intW i, .dropW i] := by simp [St.events, hp]
  have ec : (s.step (.timeout u)).ch = s.ch.steps [.intW i, .dropW i] := by rw [← hev]; rfl
  rw [steps_spurn h.ok hsusp hq] at ec
  refine ⟨ec, funext fun v => ?_⟩
  show goOn (s.step (.timeout u)).ch (s.ph v) = _
  rw [ec]
  refine goOn_eq (fun j hj => ?_) (h.stays v)
  have := h.wait v j hj
  simp only [VChan.upd_apply]; split
  · exact hsusp
  · exact this

/-- Coming in, or getting in line. -/
theorem enter_ph {k : BitVec 64} {s : St} {l : List Nat} (h : Inv k s l) {u : Nat} (conn : Bool)
    (hu : u < s.users) (ho : s.ph u = .out) :
    (∀ v, (s.step (.acquire u conn)).ph v =
      if v = u then if s.ch.n.toNat < s.ch.limit.toNat then .inside else .wait s.ch.nextW else s.ph v) ∧
    (s.step (.acquire u conn)).ch.posted = s.ch.posted := by
  have hnew := h.fresh
  have hr := writeReady_iff h.ok
  by_cases hn : s.ch.n.toNat < s.ch.limit.toNat
  · rw [if_pos hn]
    have ec : (s.step (.acquire u conn)).ch =
        { s.ch with W := upd s.ch.W s.ch.nextW { status := .done }, nextW := s.ch.nextW + 1, n := s.ch.n + 1#64,
                    log := s.ch.log ++ [Obs.doneW s.ch.nextW .ok] } := by
      rw [← steps_ready h.ok conn (hr.2 hn)]
      simp [St.step, St.events, hu, ho]
    refine ⟨fun v => ?_, by rw [ec]⟩
    show goOn (s.step (.acquire u conn)).ch (s.phase (.acquire u conn) v) = _
    rw [ec]
    simp only [St.phase, hu, ho, and_self, if_true]
    by_cases hv : v = u
    · simp [hv, goOn, VChan.upd_apply]
    · simp only [hv, if_false]
      refine goOn_eq (fun i hi => ?_) (h.stays v)
      have hne : i ≠ s.ch.nextW := by
        rintro rfl
        have := h.wait v _ hi
        rw [hnew] at this; cases this
      simp [VChan.upd_apply, hne, h.wait v i hi]
  · rw [if_neg hn]
    have hr' : s.ch.writeReady = false := by
      cases e : s.ch.writeReady
      · rfl
      · exact absurd (hr.1 e) hn
    have ec : (s.step (.acquire u conn)).ch =
        { s.ch with W := upd s.ch.W s.ch.nextW { status := .susp, waiting := true, slot := conn },
                    nextW := s.ch.nextW + 1, wq := s.ch.wq ++ [s.ch.nextW] } := by
      rw [← steps_full h.ok conn hr']
      simp [St.step, St.events, hu, ho]
    refine ⟨fun v => ?_, by rw [ec]⟩
    show goOn (s.step (.acquire u conn)).ch (s.phase (.acquire u conn) v) = _
    rw [ec]
    simp only [St.phase, hu, ho, and_self, if_true]
    by_cases hv : v = u
    · simp [hv, goOn, VChan.upd_apply]
    · simp only [hv, if_false]
      refine goOn_eq (fun i hi => ?_) (h.stays v)
      have hne : i ≠ s.ch.nextW := by
        rintro rfl
        have := h.wait v _ hi
        rw [hnew] at this; cases this
      simp [VChan.upd_apply, hne, h.wait v i hi]

/-- Trying again. -/
theorem retry_ph {k : BitVec 64} {s : St} {l : List Nat} (h : Inv k s l) (hN : s.users < 2 ^ 64) {u i : Nat}
    (hw : Waits s u i) :
    (∃ l', Inv k (s.steps (retry u)) l' ∧ l'.length = if l.length < k.toNat then l.length + 1 else l.length) ∧
    ((s.steps (retry u)).ph u = .inside ↔ l.length < k.toNat) ∧
    (∀ v, v ≠ u → (s.steps (retry u)).ph v = s.ph v) ∧ (s.steps (retry u)).ch.posted = s.ch.posted := by
  obtain ⟨h1, e1, e2, e3⟩ := quit_ph h hw
  have hu : u < (s.step (.timeout u)).users := h.few u (by rw [hw.1]; simp)
  have ho : (s.step (.timeout u)).ph u = .out := by rw [e1]; simp
  obtain ⟨e4, e5⟩ := enter_ph h1 true hu ho
  have es : s.steps (retry u) = (s.step (.timeout u)).step (.acquire u true) := rfl
  have hl := h1.limit
  have hc := h1.cnt
  rw [hl, hc] at e4
  rw [es]
  refine ⟨?_, ?_, fun v hv => ?_, e5.trans e2⟩
  · cases hr : (s.step (.timeout u)).ch.writeReady with
    | true =>
      obtain ⟨h2, _⟩ := h1.ready hN true hu ho hr
      have := (writeReady_iff h1.ok).1 hr
      rw [hl, hc] at this
      exact ⟨_, h2, by simp [this]⟩
    | false =>
      obtain ⟨h2, _⟩ := h1.full true hu ho hr
      have : ¬ l.length < k.toNat := fun hx => by
        have := (writeReady_iff h1.ok).2 (by rw [hl, hc]; exact hx)
        rw [hr] at this; cases this
      exact ⟨_, h2, by simp [this]⟩
  · rw [e4]; simp
  · rw [e4, if_neg hv, e1, if_neg hv]

/-- What a scheduled resumption does. -/
theorem pass_ph {k : BitVec 64} {s : St} {l : List Nat} (h : Inv k s l) (m : Nat) (u i : Nat) :
    Waits (s.step (.run m)) u i ↔ Waits s u i := by
  rcases hk : s.ch.posted[m]? with _ | t
  · rw [h.idle (.run m) (by
      show s.ch.steps [.run m] = _
      rw [steps_one]
      simp [VChan.St.step, h.ok.ub, VChan.St.run, hk]) rfl]
  · have hmem : t ∈ s.ch.posted := List.mem_of_getElem? hk
    cases t with
    | r i => exact absurd hmem (h.ok.postR i)
    | w j =>
      have hsusp := (h.ok.wf.wpost j hmem).1
      have ec : (s.step (.run m)).ch = s.ch.steps [.run m] := rfl
      rw [steps_run h.ok hk] at ec
      have hst : ∀ a, ((s.step (.run m)).ch.W a).status = if a = j then .done else (s.ch.W a).status := by
        intro a; rw [ec]; split <;> simp only [VChan.upd_apply] <;> split <;> rfl
      have hpo : (s.step (.run m)).ch.posted = s.ch.posted.eraseIdx m := by rw [ec]; split <;> rfl
      have hin : ∀ x, x ∈ (s.step (.run m)).ch.posted ↔ x ∈ s.ch.posted ∧ x ≠ .w j := by
        intro x; rw [hpo]; exact VChan.nodup_eraseIdx_mem h.ok.wf.ndP hk _
      have hph : ∀ v, (∀ a, s.ph v = .wait a → a ≠ j) → (s.step (.run m)).ph v = s.ph v := by
        intro v hv
        show goOn (s.step (.run m)).ch (s.ph v) = _
        refine goOn_eq (fun a ha => ?_) (h.stays v)
        rw [hst, if_neg (hv a ha)]; exact h.wait v a ha
      have hout : ∀ v, s.ph v = .wait j → ∀ a, (s.step (.run m)).ph v ≠ .wait a := by
        intro v hv a
        show goOn (s.step (.run m)).ch (s.ph v) ≠ _
        rw [hv]
        simp only [goOn, hst, if_true, true_or]
        split <;> simp
      constructor
      · rintro ⟨h1, h2⟩
        have hne : ∀ a, s.ph u = .wait a → a ≠ j := fun a ha e => hout u (e ▸ ha) i h1
        rw [hph u hne] at h1
        exact ⟨h1, fun hx => h2 ((hin _).2 ⟨hx, by simpa using hne i h1⟩)⟩
      · rintro ⟨h1, h2⟩
        have hne : ∀ a, s.ph u = .wait a → a ≠ j := fun a ha e => by
          rw [h1] at ha; cases ha; exact h2 (e ▸ hmem)
        exact ⟨(hph u hne).trans h1, fun hx => h2 ((hin _).1 hx).1⟩

theorem passes_ph {k : BitVec 64} (u i : Nat) (ms : List Nat) : ∀ {s : St} {l : List Nat}, Inv k s l → s.users < 2 ^ 64 →
    (Waits (s.steps (ms.map .run)) u i ↔ Waits s u i) := by
  induction ms with
  | nil => exact fun _ _ => Iff.rfl
  | cons m ms ih =>
    intro s l h hN
    obtain ⟨l1, h1, _⟩ := h.step hN (.run m)
    exact (ih h1 (show (s.step (.run m)).users < 2 ^ 64 from hN)).trans (pass_ph h m u i)

theorem heals {k : BitVec 64} (ws : List Nat) : ∀ {s : St} {l : List Nat}, Inv k s l → s.users < 2 ^ 64 →
    l.length ≤ k.toNat → s.ch.posted = [] → ws.Nodup → (∀ u ∈ ws, ∃ i, s.ph u = .wait i) →
    ∃ vs, Are (s.steps (ws.flatMap retry)) vs ∧ vs.length = min k.toNat (l.length + ws.length) := by
  induction ws with
  | nil =>
    intro s l h _ hle _ _ _
    exact ⟨l, ⟨h.nd, h.mem⟩, by simp; omega⟩
  | cons u ws ih =>
    intro s l h hus hle hpo hnd hws
    obtain ⟨i, hi⟩ := hws u (by simp)
    obtain ⟨⟨l', h', hl'⟩, _, hoth, hpo'⟩ := retry_ph h hus (u := u) (i := i) ⟨hi, by rw [hpo]; simp⟩
    have hu' : (s.steps (retry u)).users < 2 ^ 64 := by rw [steps_users]; exact hus
    have he : s.steps ((u :: ws).flatMap retry) = (s.steps (retry u)).steps (ws.flatMap retry) := by
      simp only [St.steps, List.flatMap_cons, List.foldl_append]
    obtain ⟨vs, h1, h2⟩ := ih h' hu' (by rw [hl']; split <;> omega) (hpo'.trans hpo) (List.nodup_cons.1 hnd).2
      (fun v hv => by
        obtain ⟨j, hj⟩ := hws v (by simp [hv])
        refine ⟨j, ?_⟩
        rw [hoth v (by rintro rfl; exact (List.nodup_cons.1 hnd).1 hv)]; exact hj)
    refine ⟨vs, by rw [he]; exact h1, ?_⟩
    rw [h2, hl', List.length_cons]
    split <;> omega

end Cobalt.Lock
