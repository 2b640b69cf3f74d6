import Verif.Hub.Lemmas
/-! Helper: what the hub has written. -/
namespace Cobalt.Hub
open Net (Act Res At NI started begun done wrote sent received nreads)
open Chan (upd)

structure WI (s : St) : Prop where
  nodup : s.todo.Nodup
  small : ∀ i ∈ s.todo, i < s.n
  begun : ∀ i, s.since i ≤ s.log.length
  late : ∀ i ∈ s.todo, s.since i < s.log.length
  wr : ∀ i, i < s.n → s.left i = false →
    wrote i (s.did 0) = if i ∈ s.todo then s.log.dropLast.drop (s.since i) else s.log.drop (s.since i)
  pre : ∀ i, i < s.n → wrote i (s.did 0) <+: s.log.drop (s.since i)
  new : ∀ i, s.n ≤ i → wrote i (s.did 0) = []
  gone : ∀ i, s.left i = true → s.net.pos (i + 1) = .idle
  away : ∀ i, s.n ≤ i → s.net.pos (i + 1) = .idle

theorem WI.init (cap : Nat) : WI (St.init cap) := by
  constructor <;> simp [St.init, Net.St.init, wrote]

theorem idle_on {s : Net.St} {A : Nat → List Act} {c : Nat} {e : Chan.Ev} {p : Nat} (h : s.pos p = .idle) :
    (s.on (route A) c e).pos p = .idle := by
  rcases Net.on_moves (route A) s c p e with ⟨-, h2⟩ | ⟨-, h2, -⟩
  · rw [h2]; exact h
  · exact h2

theorem idle_act {s : Net.St} {A : Nat → List Act} {p q : Nat} {conn : Bool} {a : Act} (hq : q ≠ p) (h : s.pos q = .idle) :
    (s.act (route A) p conn a).pos q = .idle := by
  cases a with
  | read c => exact idle_on (s := { s with ch := _, pos := _ }) (by dsimp only; rw [Net.upd_ne _ _ hq]; exact h)
  | write c v => exact idle_on (s := { s with ch := _, vals := _, pos := _ }) (by dsimp only; rw [Net.upd_ne _ _ hq]; exact h)
  | close c => exact idle_on (s := { s with hist := _ }) h
  | stop => exact h

theorem dropLast_append_getLast? (l : List Nat) (h : l ≠ []) : l.dropLast ++ [l.getLast?.getD 0] = l := by
  rw [List.getLast?_eq_some_getLast h]
  exact List.dropLast_append_getLast h

theorem drop_whole {l : List Nat} {k : Nat} (h : k < l.length) :
    l.dropLast.drop k ++ [l.getLast?.getD 0] = l.drop k := by
  have hl : l ≠ [] := by intro e; rw [e] at h; simp at h
  have : k ≤ l.dropLast.length := by rw [List.length_dropLast]; omega
  rw [← List.drop_append_of_le_length this, dropLast_append_getLast? l hl]

theorem WI.step {s : St} (w : WI s) (e : Ev) : WI (s.step e) := by
  cases e with
  | update v o =>
    simp only [St.step]
    split
    · rename_i h
      obtain ⟨hf, hp⟩ := h
      have hp := List.isPerm_iff.1 hp
      have hmem : ∀ i, i ∈ o ↔ i < s.n := fun i => by rw [hp.mem_iff, List.mem_range]
      refine ⟨hp.nodup_iff.2 List.nodup_range, fun i hi => (hmem i).1 hi, ?_, ?_, ?_, ?_, w.new, w.gone, w.away⟩
      · intro i; have := w.begun i; simp; omega
      · intro i _; have := w.begun i; simp; omega
      · intro i hi hl
        have := w.wr i hi hl
        rw [hf.2] at this
        dsimp only
        rw [this, if_pos ((hmem i).2 hi)]
        simp
      · intro i hi
        dsimp only
        rw [List.drop_append_of_le_length (w.begun i)]
        exact (w.pre i hi).trans (List.prefix_append _ _)
    · exact w
  | sub =>
    simp only [St.step]
    split
    · rename_i hf
      have hu : ∀ i, i ≠ s.n → upd s.since s.n s.log.length i = s.since i := fun i hi => Net.upd_ne _ _ hi
      have hn := w.new s.n (Nat.le_refl _)
      refine ⟨w.nodup, ?_, ?_, ?_, ?_, ?_, ?_, w.gone, fun i hi => w.away i (Nat.le_of_succ_le hi)⟩
      · intro i hi; have := w.small i hi; dsimp only; omega
      · intro i
        dsimp only
        by_cases hi : i = s.n
        · subst hi; rw [Net.upd_self]; exact Nat.le_refl _
        · rw [hu i hi]; exact w.begun i
      · intro i hi
        have h1 := w.small i hi
        dsimp only
        rw [hu i (by omega)]; exact w.late i hi
      · intro i hi hl
        dsimp only at hi hl ⊢
        by_cases hi' : i = s.n
        · subst hi'; rw [Net.upd_self, hn, hf.2]; simp
        · rw [hu i hi']; exact w.wr i (by omega) hl
      · intro i hi
        dsimp only at hi ⊢
        by_cases hi' : i = s.n
        · subst hi'; rw [hn]; exact List.nil_prefix
        · rw [hu i hi']; exact w.pre i (by omega)
      · intro i hi; exact w.new i (by dsimp only at hi; omega)
    · exact w
  | leave i =>
    simp only [St.step]
    split
    · rename_i hp
      refine ⟨w.nodup, w.small, w.begun, w.late, ?_, w.pre, w.new, ?_, w.away⟩
      · intro j hj hl
        dsimp only at hl
        by_cases hi : j = i
        · subst hi; rw [Net.upd_self] at hl; cases hl
        · rw [Net.upd_ne _ _ hi] at hl; exact w.wr j hj hl
      · intro j hl
        dsimp only at hl
        by_cases hi : j = i
        · subst hi; exact hp
        · rw [Net.upd_ne _ _ hi] at hl; exact w.gone j hl
    · exact w
  | hub conn =>
    simp only [St.step]
    split
    · rename_i hp
      cases ht : s.todo with
      | nil => exact w
      | cons c cs =>
        have hnd := w.nodup
        rw [ht, List.nodup_cons] at hnd
        have hin : c ∈ s.todo := by rw [ht]; simp
        have hsub : ∀ i ∈ cs, i ∈ s.todo := fun i hi => by rw [ht]; exact List.mem_cons_of_mem _ hi
        have hiff : ∀ i, i ≠ c → (i ∈ cs ↔ i ∈ s.todo) := fun i hi => by rw [ht, List.mem_cons]; simp [hi]
        simp only [St.next]
        split
        · rename_i hl
          refine ⟨hnd.2, fun i hi => w.small i (hsub i hi), w.begun, fun i hi => w.late i (hsub i hi), ?_, w.pre, w.new, w.gone, w.away⟩
          intro i hi hli
          dsimp only at hli ⊢
          have hic : i ≠ c := by intro e; subst e; rw [hl] at hli; cases hli
          rw [w.wr i hi hli]
          simp only [hiff i hic]
        · rename_i hl
          have hl : s.left c = false := by simpa using hl
          have hw : ∀ i, wrote i (upd s.did 0 (s.did 0 ++ [.write c (s.log.getLast?.getD 0)]) 0) =
              wrote i (s.did 0) ++ if c = i then [s.log.getLast?.getD 0] else [] := by
            intro i; rw [Net.upd_self, Net.wrote_snoc]
          have hc := w.wr c (w.small c hin) hl
          rw [if_pos hin] at hc
          refine ⟨hnd.2, fun i hi => w.small i (hsub i hi), w.begun, fun i hi => w.late i (hsub i hi), ?_, ?_, ?_, ?_, fun i hi => idle_act (by omega) (w.away i hi)⟩
          · intro i hi hli
            change wrote i (upd s.did 0 (s.did 0 ++ [.write c (s.log.getLast?.getD 0)]) 0) =
              if i ∈ cs then s.log.dropLast.drop (s.since i) else s.log.drop (s.since i)
            change s.left i = false at hli
            rw [hw]
            by_cases hic : c = i
            · subst hic
              rw [if_pos rfl, if_neg hnd.1, hc, drop_whole (w.late c hin)]
            · rw [if_neg hic, List.append_nil, w.wr i hi hli]
              simp only [hiff i (Ne.symm hic)]
          · intro i hi
            simp only [St.go] at hi ⊢
            rw [hw]
            by_cases hic : c = i
            · subst hic
              rw [if_pos rfl, hc, drop_whole (w.late c hin)]
              exact List.prefix_refl _
            · rw [if_neg hic, List.append_nil]; exact w.pre i hi
          · intro i hi
            simp only [St.go] at hi ⊢
            have hlt := w.small c hin
            rw [hw, if_neg (by omega), List.append_nil]
            exact w.new i hi
          · intro i hl'
            simp only [St.go] at hl' ⊢
            exact idle_act (by omega) (w.gone i hl')
    · exact w
  | read i conn =>
    simp only [St.step]
    split
    · rename_i h
      have hd : upd s.did (i + 1) (s.did (i + 1) ++ [.read i]) 0 = s.did 0 := Net.upd_ne _ _ (by omega)
      refine ⟨w.nodup, w.small, w.begun, w.late, ?_, ?_, ?_, ?_, fun j hj => idle_act (by have : s.n ≤ j := hj; omega) (w.away j hj)⟩
      · intro j hj hl; simp only [St.go, hd] at hj hl ⊢; exact w.wr j hj hl
      · intro j hj; simp only [St.go, hd] at hj ⊢; exact w.pre j hj
      · intro j hj; simp only [St.go, hd] at hj ⊢; exact w.new j hj
      · intro j hl
        simp only [St.go] at hl ⊢
        have hji : j ≠ i := by intro e; subst e; rw [h.2.1] at hl; cases hl
        exact idle_act (by omega) (w.gone j hl)
    · exact w
  | run c k =>
    simp only [St.step]
    exact ⟨w.nodup, w.small, w.begun, w.late, w.wr, w.pre, w.new, fun i hl => idle_on (w.gone i hl),
      fun i hi => idle_on (w.away i hi)⟩

theorem WI.steps {s : St} (w : WI s) (es : List Ev) : WI (s.steps es) := by
  induction es generalizing s with
  | nil => exact w
  | cons e es ih => exact ih (w.step e)

theorem WI.run (cap : Nat) (es : List Ev) : WI (Hub.run cap es) := (WI.init cap).steps es

end Cobalt.Hub
