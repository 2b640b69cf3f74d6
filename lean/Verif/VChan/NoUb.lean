import Verif.VChan.Bound
/-! Helper: programs that destroy interrupted operations at once have no
undefined behaviour. -/
namespace Cobalt.VChan

open Chan (Status Tok upd)

theorem noUb_wakeWriter {s : St} (hu : s.ub = false) (hw : ∀ w ∈ s.wq, (s.W w).waiting = true) :
    s.wakeWriter.ub = false := by
  unfold St.wakeWriter
  split
  · exact hu
  · rename_i w rest hq
    dsimp only
    split
    · rw [if_pos (hw w (by simp [hq]))]; exact hu
    · exact hu

theorem noUb_wakeReader {s : St} (hu : s.ub = false) (hw : ∀ w ∈ s.rq, (s.R w).waiting = true) :
    s.wakeReader.ub = false := by
  unfold St.wakeReader
  split
  · exact hu
  · rename_i w rest hq
    dsimp only
    split
    · rw [if_pos (hw w (by simp [hq]))]; exact hu
    · exact hu

theorem noUb_resumeR {s : St} {i : Nat} (hu : s.ub = false) (hw : ∀ w ∈ s.wq, (s.W w).waiting = true) :
    (s.resumeR i).ub = false := by
  unfold St.resumeR
  split
  · exact hu
  · split
    · exact hu
    · split <;> exact noUb_wakeWriter hu hw

theorem noUb_resumeW {s : St} {i : Nat} (hu : s.ub = false) (hw : ∀ w ∈ s.rq, (s.R w).waiting = true) :
    (s.resumeW i).ub = false := by
  unfold St.resumeW
  split
  · exact hu
  · split
    · exact hu
    · split <;> exact noUb_wakeReader hu hw

theorem hits_queues (ts : List Tok) (s : St) :
    (ts.foldl St.int s).rq = s.rq ∧ (ts.foldl St.int s).wq = s.wq ∧ (ts.foldl St.int s).ub = s.ub := by
  induction ts generalizing s with
  | nil => exact ⟨rfl, rfl, rfl⟩
  | cons t ts ih =>
    rw [List.foldl_cons, (ih _).1, (ih _).2.1, (ih _).2.2]
    cases t
    · simp only [St.int, intR_eq]; split
      · exact ⟨rfl, rfl, rfl⟩
      · split <;> exact ⟨rfl, rfl, rfl⟩
    · simp only [St.int, intW_eq]; split
      · exact ⟨rfl, rfl, rfl⟩
      · split <;> exact ⟨rfl, rfl, rfl⟩

theorem noUb_step {s : St} (h : WF s none) (hu : s.ub = false) (e : Ev)
    (ht : s.noStale ∨ e.isDrop = true) : (s.step e).ub = false := by
  rcases ht with hn | hd
  · have hr : ∀ i ∈ s.rq, (s.R i).waiting = true := by
      intro i hi
      have := h.rlink i hi; have := hn.1 i hi; grind
    have hw : ∀ i ∈ s.wq, (s.W i).waiting = true := by
      intro i hi
      have := h.wlink i hi; have := hn.2 i hi; grind
    unfold St.step
    rw [if_neg (by simp [hu])]
    cases e with
    | mkR => exact hu
    | mkW => exact hu
    | awaitR i c t l =>
      dsimp only; rw [awaitR_eq]; split
      · exact hu
      · split
        · exact noUb_resumeR hu hw
        · split
          · exact hu
          · rename_i w rest hq
            rw [if_pos (hw w (by simp [hq]))]
            have hrq : s.rq = [] := by have := h.excl; simp [hq] at this; exact this
            apply noUb_resumeW
            · rw [(hits_queues _ _).2.2]; exact hu
            · rw [(hits_queues _ _).1]; simp [St.takeFrom, St.handR, hrq]
    | awaitW i c t l =>
      dsimp only; rw [awaitW_eq]; split
      · exact hu
      · split
        · exact noUb_resumeW hu hr
        · split
          · exact hu
          · rename_i w rest hq
            rw [if_pos (hr w (by simp [hq]))]
            have hrq : s.wq = [] := by have := h.excl; simp [hq] at this; exact this
            apply noUb_resumeR
            · rw [(hits_queues _ _).2.2]; exact hu
            · rw [(hits_queues _ _).2.1]; simp [St.giveTo, St.handW, hrq]
    | run k =>
      dsimp only; unfold St.run; split
      · exact hu
      · exact noUb_resumeR hu hw
      · exact noUb_resumeW hu hr
    | cancelR i => dsimp only; unfold St.cancelR; split <;> exact hu
    | cancelW i => dsimp only; unfold St.cancelW; split <;> exact hu
    | intR i => exact ((hits_queues [.r i] s).2.2).trans hu
    | intW i => exact ((hits_queues [.w i] s).2.2).trans hu
    | dropR i => dsimp only; unfold St.dropR; split <;> exact hu
    | dropW i => dsimp only; unfold St.dropW; split <;> exact hu
    | close => exact hu
  · unfold St.step
    rw [if_neg (by simp [hu])]
    cases e <;> simp [Ev.isDrop] at hd
    · dsimp only; unfold St.dropR; split <;> exact hu
    · dsimp only; unfold St.dropW; split <;> exact hu

theorem tidy_steps {s : St} (h : WF s none) (hu : s.ub = false) (es : List Ev) (ht : Tidy s es) :
    (s.steps es).ub = false := by
  induction es generalizing s with
  | nil => exact hu
  | cons e es ih =>
    have h1 := noUb_step h hu e ht.1
    rcases h.step e with h2 | h2
    · rw [h1] at h2; cases h2
    · exact ih h2 h1 ht.2

end Cobalt.VChan
