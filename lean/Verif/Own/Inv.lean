import Verif.Own.Mono
/-! Helper: what is taken out of variables. -/
namespace Cobalt.Own
open Chan (Obs upd)

theorem upd₂_same {α : Type} (f : Nat → Nat → α) (c i : Nat) (x : α) : upd₂ f c i x c i = x := by simp [upd₂, upd]

theorem upd₂_diff {α : Type} (f : Nat → Nat → α) {c i c' i' : Nat} (x : α) (h : c' = c → i' ≠ i) :
    upd₂ f c i x c' i' = f c' i' := by
  unfold upd₂ upd
  by_cases e : c' = c
  · subst e; simp [h rfl]
  · simp [e]

variable {c : Nat}

theorem takes_frame (is : List Nat) (s : St) : is.foldl (St.takeOne c) s =
    { s with got := (is.foldl (St.takeOne c) s).got, mem := (is.foldl (St.takeOne c) s).mem } := by
  induction is generalizing s with
  | nil => rfl
  | cons i is ih => rw [List.foldl_cons, ih]; rfl

open Classical in
theorem takes_mem (is : List Nat) (s : St) (y : Nat) : (is.foldl (St.takeOne c) s).mem y =
    if ∃ i, i ∈ is ∧ (s.kind c i).moves = true ∧ s.src c i = y then none else s.mem y := by
  induction is generalizing s with
  | nil => simp
  | cons i is ih =>
    rw [List.foldl_cons, ih]
    have e1 : (St.takeOne c s i).kind = s.kind := rfl
    have e2 : (St.takeOne c s i).src = s.src := rfl
    rw [e1, e2]
    by_cases h : ∃ i, i ∈ is ∧ (s.kind c i).moves = true ∧ s.src c i = y
    · rw [if_pos h, if_pos]
      obtain ⟨j, h1, h2⟩ := h
      exact ⟨j, List.mem_cons_of_mem _ h1, h2⟩
    · rw [if_neg h]
      by_cases hi : (s.kind c i).moves = true ∧ s.src c i = y
      · rw [if_pos ⟨i, List.mem_cons_self, hi⟩]
        simp [St.takeOne, hi.1, hi.2, upd]
      · rw [if_neg]
        · simp only [St.takeOne]
          split
          · rename_i hm
            have : y ≠ s.src c i := fun e => hi ⟨hm, e.symm⟩
            simp [upd, this]
          · rfl
        · intro ⟨j, h1, h2⟩
          rcases List.mem_cons.1 h1 with h1 | h1
          · subst h1; exact hi h2
          · exact h ⟨j, h1, h2⟩

theorem takes_keep (is : List Nat) (s : St) {c' j : Nat} (h : c' = c → j ∉ is) :
    (is.foldl (St.takeOne c) s).got c' j = s.got c' j := by
  induction is generalizing s with
  | nil => rfl
  | cons i is ih =>
    rw [List.foldl_cons, ih _ fun e hj => h e (List.mem_cons_of_mem _ hj)]
    simp only [St.takeOne]
    exact upd₂_diff _ _ fun e hj => h e (by rw [hj]; exact List.mem_cons_self)

theorem takes_some (is : List Nat) (s : St) {j : Nat} (h : j ∈ is) :
    ((is.foldl (St.takeOne c) s).got c j).isSome = true := by
  induction is generalizing s with
  | nil => cases h
  | cons i is ih =>
    rw [List.foldl_cons]
    by_cases hj : j ∈ is
    · exact ih _ hj
    · rw [takes_keep _ _ fun _ => hj]
      have : j = i := (List.mem_cons.1 h).resolve_right hj
      subst this
      simp only [St.takeOne, upd₂_same]; rfl

theorem takes_val (is : List Nat) (s : St) (hn : is.Nodup) (hs : ∀ i j, i ∈ is → j ∈ is → s.src c i = s.src c j → i = j)
    {j : Nat} (h : j ∈ is) : (is.foldl (St.takeOne c) s).got c j = some (s.mem (s.src c j)) := by
  induction is generalizing s with
  | nil => cases h
  | cons i is ih =>
    obtain ⟨hn1, hn2⟩ := List.nodup_cons.1 hn
    rw [List.foldl_cons]
    by_cases hj : j ∈ is
    · rw [ih (St.takeOne c s i) hn2 (fun a b ha hb => hs a b (List.mem_cons_of_mem _ ha) (List.mem_cons_of_mem _ hb)) hj]
      have hne : s.src c j ≠ s.src c i := fun e => hn1 (by
        rw [← hs j i h List.mem_cons_self e]; exact hj)
      simp only [St.takeOne]
      split
      · simp [upd, hne]
      · rfl
    · rw [takes_keep _ _ fun _ => hj]
      have : j = i := (List.mem_cons.1 h).resolve_right hj
      subst this
      simp only [St.takeOne, upd₂_same]

theorem mem_news {s : St} {t : Chan.St} {i : Nat} (ht : Ci t) :
    i ∈ s.news c t ↔ took t i = true ∧ s.got c i = none := by
  simp only [St.news, List.mem_filter, List.mem_range, Bool.and_eq_true, Option.isNone_iff_eq_none]
  exact ⟨fun h => h.2, fun h => ⟨took_lt ht h.1, h⟩⟩

theorem news_nodup (s : St) (t : Chan.St) : (s.news c t).Nodup := List.Nodup.filter _ List.nodup_range

/-- What was taken is what the channels say. -/
structure OI (s : St) : Prop where
  ci : ∀ c, Ci (s.ch c)
  got : ∀ c i, took (s.ch c) i = true ↔ (s.got c i).isSome = true

theorem OI.init (cap m : Nat → Nat) : OI (St.init cap m) :=
  ⟨fun c => Ci.init _, fun c i => by simp [took, St.init, Chan.St.init]⟩

theorem chan_ch (s : St) (t : Chan.St) : (s.chan c t).ch = upd s.ch c t := by
  rw [St.chan, takes_frame]

theorem chan_src (s : St) (t : Chan.St) : (s.chan c t).src = s.src := by rw [St.chan, takes_frame]
theorem chan_kind (s : St) (t : Chan.St) : (s.chan c t).kind = s.kind := by rw [St.chan, takes_frame]
theorem chan_given (s : St) (t : Chan.St) : (s.chan c t).given = s.given := by rw [St.chan, takes_frame]

theorem OI.chan {s : St} (o : OI s) {n : Option Nat} {t : Chan.St} (g : Go n (s.ch c) t) : OI (s.chan c t) := by
  refine ⟨fun c' => ?_, fun c' i => ?_⟩
  · rw [chan_ch]
    by_cases e : c' = c
    · subst e; simp only [upd, if_true]; exact g.ci
    · simp only [upd, e, if_false]; exact o.ci c'
  · rw [chan_ch]
    by_cases e : c' = c
    · subst e
      simp only [upd, if_true, St.chan]
      by_cases h : i ∈ s.news c' t
      · have := takes_some (c := c') _ { s with ch := upd s.ch c' t } h
        exact ⟨fun _ => this, fun _ => ((mem_news g.ci).1 h).1⟩
      · rw [takes_keep _ _ fun _ => h]
        show took t i = true ↔ (s.got c' i).isSome = true
        constructor
        · intro ht
          cases hg : s.got c' i with
          | none => exact absurd ((mem_news g.ci).2 ⟨ht, hg⟩) h
          | some v => rfl
        · intro hg; exact g.took i ((o.got c' i).2 hg)
    · simp only [upd, e, if_false, St.chan]
      rw [takes_keep _ _ fun h => absurd h e]
      exact o.got c' i

theorem point_ok {s : St} (o : OI s) (x : Nat) (k : Kind) : OI (s.point c x k) := ⟨o.ci, o.got⟩

/-- What a step does: nothing but an assignment, or channel `c` goes on. -/
theorem step_cases {s : St} (o : OI s) (e : Ev) (hf : (s.step e).fine) :
    OI (s.step e) ∧ ((∃ x v, e = .set x v) ∨ s.step e = s ∨
      (∃ c t, Go none (s.ch c) t ∧ s.step e = s.chan c t) ∨
      ∃ c x k conn txn hits t, e = .write c x k conn txn hits ∧ Go (some (s.ch c).nextW) (s.ch c) t ∧
        s.step e = (s.point c x k).chan c t) := by
  cases e with
  | set x v => exact ⟨⟨o.ci, o.got⟩, .inl ⟨x, v, rfl⟩⟩
  | chan c e =>
    simp only [St.step] at hf ⊢
    split at hf
    · rename_i h; rw [if_pos h]; exact ⟨o, .inr (.inl rfl)⟩
    · rename_i h
      rw [if_neg h]
      have hu : ((s.ch c).step e).ub = false := by
        have := hf c; rw [chan_ch] at this; simpa [upd] using this
      have g := (o.ci c).other (by simpa using h) hu
      exact ⟨o.chan g, .inr (.inr (.inl ⟨c, _, g, rfl⟩))⟩
  | write c x k conn txn hits =>
    simp only [St.step] at hf ⊢
    have hu : ((s.ch c).steps [.mkW, .awaitW (s.ch c).nextW conn txn hits]).ub = false := by
      have := hf c; rw [chan_ch] at this; simpa [upd] using this
    have g := (o.ci c).write conn txn hits hu
    exact ⟨(point_ok o x k).chan g, .inr (.inr (.inr ⟨c, x, k, conn, txn, hits, _, rfl, g, rfl⟩))⟩

theorem run_snoc (cap m : Nat → Nat) (es : List Ev) (e : Ev) : run cap m (es ++ [e]) = (run cap m es).step e := by
  simp [run, List.foldl_append]

theorem fine_step {s : St} {e : Ev} (h : (s.step e).fine) : s.fine := by
  intro c
  cases e with
  | set x v => exact h c
  | chan c' e =>
    simp only [St.step] at h
    split at h
    · exact h c
    · have := h c
      rw [chan_ch] at this
      by_cases e : c = c'
      · subst e; simp only [upd, if_true] at this; exact ub_of_step this
      · simpa [upd, e] using this
  | write c' x k conn txn hits =>
    have := h c
    simp only [St.step] at this
    rw [chan_ch] at this
    by_cases e : c = c'
    · subst e
      simp only [upd, if_true] at this
      change (((s.ch c).step .mkW).step (.awaitW (s.ch c).nextW conn txn hits)).ub = false at this
      exact ub_of_step (ub_of_step this)
    · simp only [upd, e, if_false] at this
      exact this

theorem OI.run {cap m : Nat → Nat} {es : List Ev} (h : (run cap m es).fine) : OI (run cap m es) := by
  have : ∀ l : List Ev, (Own.run cap m l.reverse).fine → OI (Own.run cap m l.reverse) := by
    intro l
    induction l with
    | nil => intro _; exact OI.init cap m
    | cons e l ih =>
      intro h
      rw [List.reverse_cons, run_snoc] at h ⊢
      exact (step_cases (ih (fine_step h)) e h).1
  have h1 := this es.reverse
  rw [List.reverse_reverse] at h1
  exact h1 h

end Cobalt.Own
