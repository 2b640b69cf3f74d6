import Verif.Resv.Spec
/-! # Lemmas on name resolution -/
namespace Cobalt.Resv

theorem upd_app {β : Type} (f : Nat → β) (a : Nat) (b : β) (x : Nat) :
    upd f a b x = if x = a then b else f x := rfl

/-- The event makes the token of the resolver expire. -/
def Ev.cuts (r : Option Nat) : Ev → Bool
  | .cancel k => r == some k
  | .drop k => r == some k
  | _ => false

theorem cut_iff (r : Option Nat) (b : List Ev) : Cut r b ↔ b.countP (Ev.cuts r) ≠ 0 := by
  rw [Ne, List.countP_eq_zero]
  constructor
  · rintro ⟨k, rfl, h | h⟩ hn
    · exact hn _ h (by simp [Ev.cuts])
    · exact hn _ h (by simp [Ev.cuts])
  · intro h
    refine Classical.byContradiction fun hc => h fun e he hce => hc ?_
    cases e <;> simp [Ev.cuts] at hce
    · exact ⟨_, hce, Or.inl he⟩
    · exact ⟨_, hce, Or.inr he⟩

theorem text_snoc (v : Nat → Nat) (c : Nat) (es : List Ev) (e : Ev) :
    text v c (es ++ [e]) = (Ev.writes c e).getD (text v c es) := by
  unfold text
  rw [List.filterMap_append]
  cases h : Ev.writes c e with
  | none => simp [h]
  | some x => simp [h]

theorem awaits_snoc (es : List Ev) (e : Ev) : awaits (es ++ [e]) = awaits es ++ e.awaited.toList := by
  unfold awaits
  rw [List.filterMap_append]
  cases h : e.awaited <;> simp [h]

theorem awaits_append (a b : List Ev) : awaits (a ++ b) = awaits a ++ awaits b := by
  simp [awaits, List.filterMap_append]

theorem mem_awaits (es : List Ev) (i : Nat) : i ∈ awaits es ↔ .await i ∈ es := by
  unfold awaits
  rw [List.mem_filterMap]
  constructor
  · rintro ⟨e, he, h⟩
    cases e <;> simp [Ev.awaited] at h
    subst h; exact he
  · intro h; exact ⟨_, h, rfl⟩

theorem starts_append (a b : List Ev) : starts (a ++ b) = starts a + starts b := by
  simp [starts, List.countP_append]

/-- How many texts, resolvers and events there have been. -/
structure Inv1 (v : Nat → Nat) (es : List Ev) (s : St) : Prop where
  order : s.told.map Prod.fst ++ s.posted ++ s.busy.toList ++ s.queue = awaits es
  n1 : s.told.length = resumes es
  n2 : s.told.length + s.posted.length = finishes es
  n3 : s.told.length + s.posted.length + s.busy.toList.length = starts es
  hcell : ∀ c, s.cell c = none ↔ .free c ∈ es
  txt : ∀ c x, s.cell c = some x → x = text v c es
  hgone : ∀ r, s.gone r = true ↔ .drop r ∈ es
  htok : ∀ r, s.tok r = es.countP (Ev.cuts r)

theorem Inv1.ini (v : Nat → Nat) : Inv1 v [] (init v) := by
  constructor <;> simp [init, awaits, resumes, finishes, starts, text, St.tok]
  intro r; cases r <;> rfl

theorem initiate_ok {s s' : St} {i : Nat} {r : Option Nat} {h w : Nat}
    (e : s.initiate i r h w = .ok s') : ∃ x y, s.has r = true ∧ s.cell h = some x ∧
      s.cell w = some y ∧
      s' = { s with ph := upd s.ph i (.asked r (s.tok r) x y), queue := s.queue ++ [i] } := by
  unfold St.initiate at e
  split at e
  · rename_i x y h1 h2 h3
    cases e; exact ⟨x, y, h1, h2, h3, rfl⟩
  · cases e

theorem initiate_cases (s : St) (i : Nat) (r : Option Nat) (h w : Nat) :
    (s.initiate i r h w = .ub ∧ (s.has r = false ∨ s.cell h = none ∨ s.cell w = none)) ∨
    (∃ s', s.initiate i r h w = .ok s') := by
  unfold St.initiate
  cases h1 : s.has r <;> cases h2 : s.cell h <;> cases h3 : s.cell w <;> simp

theorem await_ok {s s' : St} {i : Nat} (e : s.step (.await i) = .ok s') :
    ∃ r h w x y, s.ph i = .made r h w ∧ s.has r = true ∧ s.cell h = some x ∧ s.cell w = some y ∧
      s' = { s with ph := upd s.ph i (.asked r (s.tok r) x y), queue := s.queue ++ [i] } := by
  dsimp only [St.step] at e
  split at e
  · rename_i r h w hp
    obtain ⟨x, y, a, b, c, d⟩ := initiate_ok e
    exact ⟨r, h, w, x, y, hp, a, b, c, d⟩
  · cases e

theorem start_ok {s s' : St} (e : s.step .start = .ok s') :
    ∃ i q r t x y, s.busy = none ∧ s.queue = i :: q ∧ s.ph i = .asked r t x y ∧
      s' = { s with busy := some i, queue := q, ph := upd s.ph i (.out (s.take r t x y)) } := by
  dsimp only [St.step] at e
  split at e
  · rename_i i q h1 h2
    split at e
    · rename_i r t x y h3
      cases e; exact ⟨i, q, r, t, x, y, h1, h2, h3, rfl⟩
    · cases e
  · cases e

theorem finish_ok {s s' : St} (e : s.step .finish = .ok s') :
    ∃ i, s.busy = some i ∧ s' = { s with busy := none, posted := s.posted ++ [i] } := by
  dsimp only [St.step] at e
  split at e
  · rename_i i h1
    cases e; exact ⟨i, h1, rfl⟩
  · cases e

theorem resume_ok {s s' : St} (e : s.step .resume = .ok s') :
    ∃ i q o, s.posted = i :: q ∧ s.ph i = .out o ∧
      s' = { s with posted := q, told := s.told ++ [(i, o)] } := by
  dsimp only [St.step] at e
  split at e
  · rename_i i q h1
    split at e
    · rename_i o h2
      cases e; exact ⟨i, q, o, h1, h2, rfl⟩
    · cases e
  · cases e

theorem set_ok {s s' : St} {c x : Nat} (e : s.step (.set c x) = .ok s') :
    s.cell c ≠ none ∧ s' = { s with cell := upd s.cell c (some x) } := by
  dsimp only [St.step] at e
  split at e
  · cases e
  · rename_i h; cases e; exact ⟨h, rfl⟩

theorem free_ok {s s' : St} {c : Nat} (e : s.step (.free c) = .ok s') :
    s.cell c ≠ none ∧ s' = { s with cell := upd s.cell c none } := by
  dsimp only [St.step] at e
  split at e
  · cases e
  · rename_i h; cases e; exact ⟨h, rfl⟩

theorem make_ok {s s' : St} {i : Nat} {r : Option Nat} {h w : Nat}
    (e : s.step (.make i r h w) = .ok s') :
    (s.ph i = .none ∧ s.has r = true ∧ s.cell h ≠ none ∧ s.cell w ≠ none) ∧
      s' = { s with ph := upd s.ph i (.made r h w) } := by
  dsimp only [St.step] at e
  split at e
  · rename_i h; cases e; exact ⟨h, rfl⟩
  · cases e

theorem cancel_ok {s s' : St} {r : Nat} (e : s.step (.cancel r) = .ok s') :
    s' = { s with token := upd s.token r (s.token r + 1) } := by
  dsimp only [St.step] at e
  split at e
  · cases e
  · cases e; rfl

theorem drop_ok {s s' : St} {r : Nat} (e : s.step (.drop r) = .ok s') :
    s' = { s with gone := upd s.gone r true, token := upd s.token r (s.token r + 1) } := by
  dsimp only [St.step] at e
  split at e
  · cases e
  · cases e; rfl

theorem Inv1.step {v : Nat → Nat} {es : List Ev} {s s' : St} {e : Ev} (h : Inv1 v es s)
    (he : s.step e = .ok s') : Inv1 v (es ++ [e]) s' := by
  obtain ⟨a1, a2, a3, a4, a5, a6, a7, a8⟩ := h
  cases e with
  | set c x =>
    obtain ⟨h1, rfl⟩ := set_ok he
    refine ⟨by simpa [awaits_snoc, Ev.awaited] using a1, by simpa [resumes, Ev.isResume] using a2,
      by simpa [finishes, Ev.isFinish] using a3, by simpa [starts, Ev.isStart] using a4, ?_, ?_,
      by simpa using a7, ?_⟩
    · intro d
      have := a5 d
      have := a5 c
      simp only [upd_app, List.mem_append, List.mem_singleton]
      grind
    · intro d y
      have := a6 d y
      rw [text_snoc]
      simp only [upd_app, Ev.writes]
      grind
    · intro r
      rw [List.countP_append, ← a8]
      cases r <;> simp [Ev.cuts, St.tok]
  | free c =>
    obtain ⟨h1, rfl⟩ := free_ok he
    refine ⟨by simpa [awaits_snoc, Ev.awaited] using a1, by simpa [resumes, Ev.isResume] using a2,
      by simpa [finishes, Ev.isFinish] using a3, by simpa [starts, Ev.isStart] using a4, ?_, ?_,
      by simpa using a7, ?_⟩
    · intro d
      have := a5 d
      simp only [upd_app, List.mem_append, List.mem_singleton]
      grind
    · intro d y
      have := a6 d y
      rw [text_snoc]
      simp only [upd_app, Ev.writes]
      grind
    · intro r
      rw [List.countP_append, ← a8]
      cases r <;> simp [Ev.cuts, St.tok]
  | make i r h w =>
    obtain ⟨h1, rfl⟩ := make_ok he
    refine ⟨by simpa [awaits_snoc, Ev.awaited] using a1, by simpa [resumes, Ev.isResume] using a2,
      by simpa [finishes, Ev.isFinish] using a3, by simpa [starts, Ev.isStart] using a4,
      by simpa using a5, ?_, by simpa using a7, ?_⟩
    · intro d y
      have := a6 d y
      rw [text_snoc]
      simpa [Ev.writes] using this
    · intro r
      rw [List.countP_append, ← a8]
      cases r <;> simp [Ev.cuts, St.tok]
  | await i =>
    obtain ⟨r, h, w, x, y, h1, h2, h3, h4, rfl⟩ := await_ok he
    refine ⟨?_, by simpa [resumes, Ev.isResume] using a2,
      by simpa [finishes, Ev.isFinish] using a3, by simpa [starts, Ev.isStart] using a4,
      by simpa using a5, ?_, by simpa using a7, ?_⟩
    · rw [awaits_snoc, ← a1]; simp [Ev.awaited]
    · intro d y
      have := a6 d y
      rw [text_snoc]
      simpa [Ev.writes] using this
    · intro r
      rw [List.countP_append, ← a8]
      cases r <;> simp [Ev.cuts, St.tok]
  | cancel k =>
    have h1 := cancel_ok he
    subst h1
    refine ⟨by simpa [awaits_snoc, Ev.awaited] using a1, by simpa [resumes, Ev.isResume] using a2,
      by simpa [finishes, Ev.isFinish] using a3, by simpa [starts, Ev.isStart] using a4,
      by simpa using a5, ?_, by simpa using a7, ?_⟩
    · intro d y
      have := a6 d y
      rw [text_snoc]
      simpa [Ev.writes] using this
    · intro r
      rw [List.countP_append, ← a8]
      cases r with
      | none => simp [Ev.cuts, St.tok]
      | some r =>
        by_cases hk : r = k
        · subst hk; simp [Ev.cuts, St.tok, upd_app]
        · simp [Ev.cuts, St.tok, upd_app, hk]
  | drop k =>
    have h1 := drop_ok he
    subst h1
    refine ⟨by simpa [awaits_snoc, Ev.awaited] using a1, by simpa [resumes, Ev.isResume] using a2,
      by simpa [finishes, Ev.isFinish] using a3, by simpa [starts, Ev.isStart] using a4,
      by simpa using a5, ?_, ?_, ?_⟩
    · intro d y
      have := a6 d y
      rw [text_snoc]
      simpa [Ev.writes] using this
    · intro d
      have := a7 d
      simp only [upd_app, List.mem_append, List.mem_singleton]
      grind
    · intro r
      rw [List.countP_append, ← a8]
      cases r with
      | none => simp [Ev.cuts, St.tok]
      | some r =>
        by_cases hk : r = k
        · subst hk; simp [Ev.cuts, St.tok, upd_app]
        · simp [Ev.cuts, St.tok, upd_app, hk]
  | signal i =>
    cases he
    refine ⟨by simpa [awaits_snoc, Ev.awaited] using a1, by simpa [resumes, Ev.isResume] using a2,
      by simpa [finishes, Ev.isFinish] using a3, by simpa [starts, Ev.isStart] using a4,
      by simpa using a5, ?_, by simpa using a7, ?_⟩
    · intro d y
      have := a6 d y
      rw [text_snoc]
      simpa [Ev.writes] using this
    · intro r
      rw [List.countP_append, ← a8]
      cases r <;> simp [Ev.cuts, St.tok]
  | start =>
    obtain ⟨i, q, r, t, x, y, h1, h2, h3, rfl⟩ := start_ok he
    rw [h1, h2] at a1
    rw [h1] at a4
    refine ⟨by simpa [awaits_snoc, Ev.awaited] using a1, by simpa [resumes, Ev.isResume] using a2,
      by simpa [finishes, Ev.isFinish] using a3, ?_,
      by simpa using a5, ?_, by simpa using a7, ?_⟩
    · simp [starts, Ev.isStart] at a4 ⊢; omega
    · intro d y
      have := a6 d y
      rw [text_snoc]
      simpa [Ev.writes] using this
    · intro r
      rw [List.countP_append, ← a8]
      cases r <;> simp [Ev.cuts, St.tok]
  | finish =>
    obtain ⟨i, h1, rfl⟩ := finish_ok he
    rw [h1] at a1
    rw [h1] at a4
    refine ⟨by simpa [awaits_snoc, Ev.awaited] using a1, by simpa [resumes, Ev.isResume] using a2,
      ?_, ?_, by simpa using a5, ?_, by simpa using a7, ?_⟩
    · simp [finishes, Ev.isFinish] at a3 ⊢; omega
    · simp [starts, Ev.isStart] at a4 ⊢; omega
    · intro d y
      have := a6 d y
      rw [text_snoc]
      simpa [Ev.writes] using this
    · intro r
      rw [List.countP_append, ← a8]
      cases r <;> simp [Ev.cuts, St.tok]
  | resume =>
    obtain ⟨i, q, o, h1, h2, rfl⟩ := resume_ok he
    rw [h1] at a1 a3 a4
    refine ⟨by simpa [awaits_snoc, Ev.awaited] using a1, ?_, ?_, ?_, by simpa using a5, ?_,
      by simpa using a7, ?_⟩
    · simp [resumes, Ev.isResume] at a2 ⊢; omega
    · simp [finishes, Ev.isFinish] at a3 ⊢; omega
    · simp [starts, Ev.isStart] at a4 ⊢; omega
    · intro d y
      have := a6 d y
      rw [text_snoc]
      simpa [Ev.writes] using this
    · intro r
      rw [List.countP_append, ← a8]
      cases r <;> simp [Ev.cuts, St.tok]

end Cobalt.Resv
