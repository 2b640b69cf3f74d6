import Verif.With.LifeModel
/-!
# C81: the life of the coroutine of `with`
-/
namespace Cobalt.With.Life

/-- C81: whatever happens to a `with` and its awaiter, its frame is destroyed once, at the latest when its
awaiter is gone, and the awaiter does not wait for a frame that was destroyed. -/
def C81 : Prop := ∀ es, (run es).ub = false ∧ (run es).destroyed ≤ 1 ∧
  ((run es).awaiter = .gone → (run es).destroyed = 1) ∧
  ((run es).frame = .destroyed → (run es).awaiter ≠ .awaits)

theorem step_of_ub {s : St} (h : s.ub = true) (e : Ev) : s.step e = s := by
  simp [St.step, h]

theorem foldl_of_ub {s : St} (h : s.ub = true) (es : List Ev) : es.foldl St.step s = s := by
  induction es with
  | nil => rfl
  | cons e es ih => rw [List.foldl_cons, step_of_ub h]; exact ih

/-- States that keep a property under all events of a list keep it. -/
theorem foldl_keep {P : St → Prop} {es : List Ev} {Q : Ev → Prop} (hq : ∀ e, e ∈ es → Q e)
    (hP : ∀ s e, P s → Q e → P (s.step e)) : ∀ {s : St}, P s → P (es.foldl St.step s) := by
  induction es with
  | nil => intro s h; exact h
  | cons e es ih =>
    intro s h
    rw [List.foldl_cons]
    exact ih (fun e he => hq e (List.mem_cons_of_mem _ he)) (hP s e h (hq e (List.mem_cons_self ..)))

/-- What is true of every state. -/
structure Inv (s : St) : Prop where
  destroyed : s.destroyed = if s.frame = .destroyed then 1 else 0
  resumed : s.resumed ≤ s.destroyed
  runs : s.awaiter = .runs → s.frame = .made
  made : s.frame = .made → s.awaiter = .runs ∨ s.awaiter = .gone
  after : s.awaiter = .resumed → s.frame = .destroyed

theorem Inv.step {s : St} (h : Inv s) (e : Ev) : Inv (s.step e) := by
  obtain ⟨frame, awaiter, d, r, ub⟩ := s
  obtain ⟨h1, h2, h3, h4, h5⟩ := h
  cases ub with
  | true => rw [step_of_ub rfl]; exact ⟨h1, h2, h3, h4, h5⟩
  | false =>
    cases e with
    | complete b =>
      cases b <;> cases frame <;> cases awaiter <;> constructor <;>
        simp_all [St.step, St.finish]
    | _ => cases frame <;> cases awaiter <;> constructor <;> simp_all [St.step, St.finish]

theorem Inv.run (es : List Ev) : Inv (run es) :=
  foldl_keep (P := Inv) (Q := fun _ => True) (fun _ _ => trivial) (fun _ e h _ => h.step e)
    ⟨rfl, Nat.le_refl _, fun _ => rfl, fun _ => .inl rfl, fun h => by cases h⟩

/-- In any case the frame is not destroyed twice, and the awaiter not resumed twice or before. -/
theorem C81_once (es : List Ev) : (run es).destroyed ≤ 1 ∧ (run es).resumed ≤ (run es).destroyed := by
  have h := Inv.run es
  refine ⟨?_, h.resumed⟩
  rw [h.destroyed]
  split <;> omega

/-- Before the `with` is awaited nothing happens but that it may be left. -/
theorem before {pre : List Ev} (h : ∀ e, e ∈ pre → e ≠ .await ∧ e ≠ .leave) : run pre = {} :=
  foldl_keep (P := fun s => s = ({} : St)) (Q := fun e => e ≠ .await ∧ e ≠ .leave) h
    (fun s e hs he => by
      subst hs
      cases e with
      | await => exact absurd rfl he.1
      | leave => exact absurd rfl he.2
      | complete b => rfl
      | lose => rfl) rfl

theorem run_append (a b : List Ev) : run (a ++ b) = b.foldl St.step (run a) := List.foldl_append ..

/-- While it is awaited, before it ends. -/
theorem during {pre mid : List Ev} (h : ∀ e, e ∈ pre → e ≠ .await ∧ e ≠ .leave)
    (hm : ∀ e, e ∈ mid → e ≠ .complete true ∧ e ≠ .lose ∧ e ≠ .leave) :
    run (pre ++ .await :: mid) = { frame := .waiting, awaiter := .awaits } := by
  rw [run_append, before h, List.foldl_cons]
  exact foldl_keep (P := fun s => s = ({ frame := .waiting, awaiter := .awaits } : St))
    (Q := fun e => e ≠ .complete true ∧ e ≠ .lose ∧ e ≠ .leave) hm
    (fun s e hs he => by
      subst hs
      cases e with
      | await => rfl
      | leave => exact absurd rfl he.2.2
      | complete b =>
        cases b
        · rfl
        · exact absurd rfl he.1
      | lose => exact absurd rfl he.2.1) rfl

/-- C81 for a `with` that is awaited, completes before its awaiter goes, and is not awaited again: the
awaiter is resumed once and the frame destroyed then. Missing: the cases below, where it does not hold. -/
theorem C81_partial (pre mid post : List Ev) (h : ∀ e, e ∈ pre → e ≠ .await ∧ e ≠ .leave)
    (hm : ∀ e, e ∈ mid → e ≠ .complete true ∧ e ≠ .lose ∧ e ≠ .leave)
    (hp : ∀ e, e ∈ post → e ≠ .await) :
    let s := run (pre ++ .await :: (mid ++ .complete true :: post))
    s.ub = false ∧ s.destroyed = 1 ∧ s.resumed = 1 ∧ s.frame = .destroyed ∧ s.awaiter ≠ .awaits := by
  have hsplit : pre ++ .await :: (mid ++ .complete true :: post)
      = (pre ++ .await :: mid) ++ .complete true :: post := by simp
  rw [hsplit, run_append, during h hm, List.foldl_cons]
  refine foldl_keep (P := fun s => s.ub = false ∧ s.destroyed = 1 ∧ s.resumed = 1 ∧
    s.frame = .destroyed ∧ s.awaiter ≠ .awaits ∧ s.awaiter ≠ .runs) (Q := fun e => e ≠ .await) hp
    ?_ (by decide) |> fun h => ⟨h.1, h.2.1, h.2.2.1, h.2.2.2.1, h.2.2.2.2.1⟩
  intro s e hs he
  obtain ⟨frame, awaiter, d, r, ub⟩ := s
  obtain ⟨rfl, rfl, rfl, rfl, h5, h6⟩ := hs
  cases e with
  | await => exact absurd rfl he
  | complete b => exact ⟨rfl, rfl, rfl, rfl, h5, h6⟩
  | lose => exact ⟨rfl, rfl, rfl, rfl, h5, h6⟩
  | leave => exact ⟨rfl, rfl, rfl, rfl, by simp [St.step], by simp [St.step]⟩

example : run [.await, .complete false, .complete true, .leave]
    = { frame := .destroyed, awaiter := .gone, destroyed := 1, resumed := 1 } := by decide

/-- A `with` that is never awaited is never destroyed, nor is its argument. -/
theorem C81_dropped (pre post : List Ev) (h : ∀ e, e ∈ pre → e ≠ .await ∧ e ≠ .leave) :
    (run (pre ++ .leave :: post)).frame = .made ∧ (run (pre ++ .leave :: post)).destroyed = 0 := by
  rw [run_append, before h, List.foldl_cons]
  have := foldl_keep (es := post) (P := fun s => s = ({ awaiter := .gone } : St)) (Q := fun _ => True)
    (fun _ _ => trivial) (fun s e hs _ => by
      subst hs
      cases e <;> rfl) (s := ({} : St).step .leave) rfl
  rw [this]
  exact ⟨rfl, rfl⟩

example : (run [.leave, .await, .lose]).destroyed = 0 := by decide

/-- The awaiter goes while the `with` waits for an operation: this is undefined behaviour if, and only
if, the operation completes the coroutine before it is destroyed. -/
theorem C81_orphan (pre mid post : List Ev) (h : ∀ e, e ∈ pre → e ≠ .await ∧ e ≠ .leave)
    (hm : ∀ e, e ∈ mid → e ≠ .complete true ∧ e ≠ .lose ∧ e ≠ .leave) :
    (run (pre ++ .await :: (mid ++ .leave :: post))).ub = true ↔
      ∃ a b, post = a ++ .complete true :: b ∧ .lose ∉ a := by
  have hsplit : pre ++ .await :: (mid ++ .leave :: post)
      = (pre ++ .await :: mid) ++ .leave :: post := by simp
  rw [hsplit, run_append, during h hm, List.foldl_cons]
  have key : ∀ post : List Ev, (post.foldl St.step { frame := .waiting, awaiter := .gone }).ub = true ↔
      ∃ a b, post = a ++ .complete true :: b ∧ .lose ∉ a := by
    intro post
    induction post with
    | nil =>
      refine ⟨fun h => (by cases h), ?_⟩
      rintro ⟨a, b, hab, -⟩
      cases a <;> cases hab
    | cons e post ih =>
      rw [List.foldl_cons]
      have skip : e ≠ .complete true → e ≠ .lose →
          (({ frame := .waiting, awaiter := .gone } : St).step e
            = { frame := .waiting, awaiter := .gone }) →
          ((post.foldl St.step (({ frame := .waiting, awaiter := .gone } : St).step e)).ub = true ↔
            ∃ a b, e :: post = a ++ .complete true :: b ∧ .lose ∉ a) := by
        intro h1 h2 hs
        rw [hs, ih]
        constructor
        · rintro ⟨a, b, rfl, hl⟩
          refine ⟨e :: a, b, rfl, fun hmem => ?_⟩
          rcases List.mem_cons.mp hmem with h' | h'
          · exact h2 h'.symm
          · exact hl h'
        · rintro ⟨a, b, hab, hl⟩
          cases a with
          | nil => exact absurd (List.cons.inj hab).1 h1
          | cons x a =>
            obtain ⟨rfl, rfl⟩ := List.cons.inj hab
            exact ⟨a, b, rfl, fun h' => hl (List.mem_cons_of_mem _ h')⟩
      cases e with
      | await => exact skip (by simp) (by simp) rfl
      | leave => exact skip (by simp) (by simp) rfl
      | complete b =>
        cases b with
        | false => exact skip (by simp) (by simp) rfl
        | true =>
          refine ⟨fun _ => ⟨[], post, rfl, by simp⟩, fun _ => ?_⟩
          rw [foldl_of_ub rfl]
          rfl
      | lose =>
        constructor
        · intro hu
          have := foldl_keep (es := post) (P := fun s => s.ub = false ∧ s.frame = .destroyed ∧
              s.awaiter = .gone) (Q := fun _ => True)
            (fun _ _ => trivial) (fun s e hs _ => by
              obtain ⟨frame, awaiter, d, r, ub⟩ := s
              obtain ⟨rfl, rfl, rfl⟩ := hs
              cases e <;> exact ⟨rfl, rfl, rfl⟩)
            (s := ({ frame := .waiting, awaiter := .gone } : St).step .lose) ⟨rfl, rfl, rfl⟩
          rw [this.1] at hu; cases hu
        · rintro ⟨a, b, hab, hl⟩
          cases a with
          | nil => cases hab
          | cons x a =>
            obtain ⟨rfl, -⟩ := List.cons.inj hab
            exact absurd (List.mem_cons_self ..) hl
  exact key post

example : (run [.await, .leave, .complete false, .complete true]).ub = true := by decide
example : (run [.await, .leave, .complete false, .lose, .complete true]).ub = false := by decide

/-- The operation is destroyed while the `with` waits for it: the frame is destroyed, and the awaiter is
neither resumed nor destroyed by that. -/
theorem C81_lost (pre mid post : List Ev) (h : ∀ e, e ∈ pre → e ≠ .await ∧ e ≠ .leave)
    (hm : ∀ e, e ∈ mid → e ≠ .complete true ∧ e ≠ .lose ∧ e ≠ .leave)
    (hp : ∀ e, e ∈ post → e ≠ .leave) :
    run (pre ++ .await :: (mid ++ .lose :: post))
      = { frame := .destroyed, awaiter := .awaits, destroyed := 1 } := by
  have hsplit : pre ++ .await :: (mid ++ .lose :: post)
      = (pre ++ .await :: mid) ++ .lose :: post := by simp
  rw [hsplit, run_append, during h hm, List.foldl_cons]
  exact foldl_keep (P := fun s => s = ({ frame := .destroyed, awaiter := .awaits, destroyed := 1 } : St))
    (Q := fun e => e ≠ .leave) hp (fun s e hs he => by
      subst hs
      cases e with
      | leave => exact absurd rfl he
      | complete b => cases b <;> rfl
      | _ => rfl) rfl

example : (run [.await, .lose, .complete true]).resumed = 0 := by decide

/-- What C81 asks of a state. -/
def Right (s : St) : Prop := s.ub = false ∧ s.destroyed ≤ 1 ∧ (s.awaiter = .gone → s.destroyed = 1) ∧
  (s.frame = .destroyed → s.awaiter ≠ .awaits)

/-- The first event with a property. -/
theorem first (P : Ev → Prop) (es : List Ev) :
    (∀ e, e ∈ es → ¬P e) ∨ ∃ a e b, es = a ++ e :: b ∧ (∀ x, x ∈ a → ¬P x) ∧ P e := by
  induction es with
  | nil => exact .inl fun e he => by cases he
  | cons e es ih =>
    by_cases h : P e
    · exact .inr ⟨[], e, es, rfl, fun x hx => by (cases hx), h⟩
    · rcases ih with ih | ⟨a, x, b, rfl, ha, hx⟩
      · refine .inl fun x hx => ?_
        rcases List.mem_cons.mp hx with rfl | hx
        · exact h
        · exact ih x hx
      · refine .inr ⟨e :: a, x, b, rfl, fun y hy => ?_, hx⟩
        rcases List.mem_cons.mp hy with rfl | hy
        · exact h
        · exact ha y hy

/-- Once the object is gone and the frame destroyed nothing happens any more. -/
theorem still (r : Nat) (post : List Ev) :
    post.foldl St.step { frame := .destroyed, awaiter := .gone, destroyed := 1, resumed := r }
      = { frame := .destroyed, awaiter := .gone, destroyed := 1, resumed := r } :=
  foldl_keep (P := fun s => s = ({ frame := .destroyed, awaiter := .gone, destroyed := 1, resumed := r } : St))
    (Q := fun _ => True) (fun _ _ => trivial) (fun s e hs _ => by subst hs; cases e <;> rfl) rfl

/-- The state when the awaiter has the result. -/
abbrev got : St := { frame := .destroyed, awaiter := .resumed, destroyed := 1, resumed := 1 }

/-- After the awaiter has the result. -/
theorem right_resumed (post : List Ev) :
    Right (post.foldl St.step got) ↔
      ∀ a b, post = a ++ .await :: b → .leave ∈ a := by
  induction post with
  | nil =>
    refine ⟨fun _ a b h => by (cases a <;> cases h), fun _ => ?_⟩
    exact ⟨rfl, Nat.le_refl _, fun h => by (cases h), fun _ h => by cases h⟩
  | cons e post ih =>
    rw [List.foldl_cons]
    have skip : e ≠ .await → e ≠ .leave → (got.step e = got) →
        (Right (post.foldl St.step (got.step e)) ↔ ∀ a b, e :: post = a ++ .await :: b → .leave ∈ a) := by
      intro h1 h2 hs
      rw [hs, ih]
      constructor
      · intro h a b hab
        cases a with
        | nil => exact absurd (List.cons.inj hab).1 h1
        | cons x a => exact List.mem_cons_of_mem _ (h a b (List.cons.inj hab).2)
      · rintro h a b rfl
        rcases List.mem_cons.mp (h (e :: a) b rfl) with h' | h'
        · exact absurd h'.symm h2
        · exact h'
    cases e with
    | complete b => exact skip (by simp) (by simp) rfl
    | lose => exact skip (by simp) (by simp) rfl
    | await =>
      refine ⟨fun h => ?_, fun h => ?_⟩
      · have hu := h.1
        rw [foldl_of_ub rfl] at hu
        cases hu
      · have := h [] post rfl
        cases this
    | leave =>
      have hs : post.foldl St.step (got.step .leave) = _ := still 1 post
      rw [hs]
      refine ⟨fun _ a b hab => ?_, fun _ => ⟨rfl, Nat.le_refl _, fun _ => rfl, fun _ h => by cases h⟩⟩
      cases a with
      | nil => cases hab
      | cons x a => rw [← (List.cons.inj hab).1]; exact List.mem_cons_self ..

/-- After the operation was destroyed. -/
theorem right_lost (post : List Ev) :
    Right (post.foldl St.step { frame := .destroyed, awaiter := .awaits, destroyed := 1 }) ↔ .leave ∈ post := by
  induction post with
  | nil => exact ⟨fun h => absurd rfl (h.2.2.2 rfl), fun h => by cases h⟩
  | cons e post ih =>
    rw [List.foldl_cons]
    cases e with
    | leave =>
      have hs : post.foldl St.step (({ frame := .destroyed, awaiter := .awaits, destroyed := 1 } : St).step .leave)
        = _ := still 0 post
      rw [hs]
      exact ⟨fun _ => List.mem_cons_self .., fun _ => ⟨rfl, Nat.le_refl _, fun _ => rfl, fun _ h => by cases h⟩⟩
    | complete b =>
      refine ih.trans ⟨List.mem_cons_of_mem _, fun h => ?_⟩
      rcases List.mem_cons.mp h with h | h
      · cases h
      · exact h
    | lose =>
      refine ih.trans ⟨List.mem_cons_of_mem _, fun h => ?_⟩
      rcases List.mem_cons.mp h with h | h
      · cases h
      · exact h
    | await =>
      refine ih.trans ⟨List.mem_cons_of_mem _, fun h => ?_⟩
      rcases List.mem_cons.mp h with h | h
      · cases h
      · exact h

/-- After the awaiter has gone. -/
theorem right_orphan (post : List Ev) :
    Right (post.foldl St.step { frame := .waiting, awaiter := .gone }) ↔
      ∃ a b, post = a ++ .lose :: b ∧ .complete true ∉ a := by
  induction post with
  | nil =>
    refine ⟨fun h => absurd (h.2.2.1 rfl) (by decide), ?_⟩
    rintro ⟨a, b, hab, -⟩
    cases a <;> cases hab
  | cons e post ih =>
    rw [List.foldl_cons]
    have skip : e ≠ .lose → e ≠ .complete true → (({ frame := .waiting, awaiter := .gone } : St).step e
        = { frame := .waiting, awaiter := .gone }) →
        (Right (post.foldl St.step (({ frame := .waiting, awaiter := .gone } : St).step e)) ↔
          ∃ a b, e :: post = a ++ .lose :: b ∧ .complete true ∉ a) := by
      intro h1 h2 hs
      rw [hs, ih]
      constructor
      · rintro ⟨a, b, rfl, hl⟩
        refine ⟨e :: a, b, rfl, fun hm => ?_⟩
        rcases List.mem_cons.mp hm with h' | h'
        · exact h2 h'.symm
        · exact hl h'
      · rintro ⟨a, b, hab, hl⟩
        cases a with
        | nil => exact absurd (List.cons.inj hab).1 h1
        | cons x a => exact ⟨a, b, (List.cons.inj hab).2, fun h' => hl (List.mem_cons_of_mem _ h')⟩
    cases e with
    | await => exact skip (by simp) (by simp) rfl
    | leave => exact skip (by simp) (by simp) rfl
    | complete b =>
      cases b with
      | false => exact skip (by simp) (by simp) rfl
      | true =>
        refine ⟨fun h => ?_, ?_⟩
        · have hu := h.1
          rw [foldl_of_ub rfl] at hu
          cases hu
        · rintro ⟨a, b, hab, hl⟩
          cases a with
          | nil => cases hab
          | cons x a => rw [← (List.cons.inj hab).1] at hl; exact absurd (List.mem_cons_self ..) hl
    | lose =>
      have hs : post.foldl St.step (({ frame := .waiting, awaiter := .gone } : St).step .lose) = _ := still 0 post
      rw [hs]
      exact ⟨fun _ => ⟨[], post, rfl, by simp⟩, fun _ => ⟨rfl, Nat.le_refl _, fun _ => rfl, fun _ h => by cases h⟩⟩

/-- Exactly when C81 holds for a history: the `with` has been neither awaited nor left; or it is awaited, and
then still waits; or it ended and is not awaited again before it is left; or its operation was destroyed and its
awaiter has gone as well; or its awaiter went and its operation was destroyed before it would have ended it. -/
theorem C81_exact (es : List Ev) : Right (run es) ↔
    (∀ e, e ∈ es → e ≠ .await ∧ e ≠ .leave) ∨
    ∃ pre rest, es = pre ++ .await :: rest ∧ (∀ e, e ∈ pre → e ≠ .await ∧ e ≠ .leave) ∧
      ((∀ e, e ∈ rest → e ≠ .complete true ∧ e ≠ .lose ∧ e ≠ .leave) ∨
       ∃ mid post, (∀ e, e ∈ mid → e ≠ .complete true ∧ e ≠ .lose ∧ e ≠ .leave) ∧
        ((rest = mid ++ .complete true :: post ∧ ∀ a b, post = a ++ .await :: b → .leave ∈ a) ∨
         (rest = mid ++ .lose :: post ∧ .leave ∈ post) ∨
         (rest = mid ++ .leave :: post ∧ ∃ a b, post = a ++ .lose :: b ∧ .complete true ∉ a))) := by
  have split : ∀ pre mid post e, (∀ e, e ∈ pre → e ≠ .await ∧ e ≠ .leave) →
      (∀ e, e ∈ mid → e ≠ .complete true ∧ e ≠ .lose ∧ e ≠ .leave) →
      run (pre ++ .await :: (mid ++ e :: post))
        = post.foldl St.step (({ frame := .waiting, awaiter := .awaits } : St).step e) := by
    intro pre mid post e h hm
    have hsplit : pre ++ .await :: (mid ++ e :: post) = (pre ++ .await :: mid) ++ e :: post := by simp
    rw [hsplit, run_append, during h hm, List.foldl_cons]
  constructor
  · intro hr
    rcases first (fun e => e = .await ∨ e = .leave) es with h | ⟨pre, e, rest, rfl, hp, he⟩
    · exact .inl fun e he => ⟨fun h' => h e he (.inl h'), fun h' => h e he (.inr h')⟩
    · have hp' : ∀ e, e ∈ pre → e ≠ .await ∧ e ≠ .leave :=
        fun e he => ⟨fun h' => hp e he (.inl h'), fun h' => hp e he (.inr h')⟩
      rcases he with rfl | rfl
      · refine .inr ⟨pre, rest, rfl, hp', ?_⟩
        rcases first (fun e => e = .complete true ∨ e = .lose ∨ e = .leave) rest with h | ⟨mid, e, post, rfl, hm, he⟩
        · exact .inl fun e he => ⟨fun h' => h e he (.inl h'), fun h' => h e he (.inr (.inl h')),
            fun h' => h e he (.inr (.inr h'))⟩
        · have hm' : ∀ e, e ∈ mid → e ≠ .complete true ∧ e ≠ .lose ∧ e ≠ .leave :=
            fun e he => ⟨fun h' => hm e he (.inl h'), fun h' => hm e he (.inr (.inl h')),
              fun h' => hm e he (.inr (.inr h'))⟩
          rw [split pre mid post e hp' hm'] at hr
          refine .inr ⟨mid, post, hm', ?_⟩
          rcases he with rfl | rfl | rfl
          · exact .inl ⟨rfl, (right_resumed post).1 hr⟩
          · exact .inr (.inl ⟨rfl, (right_lost post).1 hr⟩)
          · exact .inr (.inr ⟨rfl, (right_orphan post).1 hr⟩)
      · exfalso
        have hd := C81_dropped pre rest hp'
        by_cases hg : (run (pre ++ .leave :: rest)).awaiter = .gone
        · have := hr.2.2.1 hg
          rw [hd.2] at this; cases this
        · refine hg ?_
          rw [run_append, before hp', List.foldl_cons]
          exact foldl_keep (es := rest) (P := fun s => s = ({ awaiter := .gone } : St)) (Q := fun _ => True)
            (fun _ _ => trivial) (fun s e hs _ => by subst hs; cases e <;> rfl) (s := ({} : St).step .leave) rfl
            |> fun h => by rw [h]
  · rintro (h | ⟨pre, rest, rfl, hp, h | ⟨mid, post, hm, ⟨rfl, h⟩ | ⟨rfl, h⟩ | ⟨rfl, h⟩⟩⟩)
    · rw [before h]
      exact ⟨rfl, Nat.zero_le _, fun h => by (cases h), fun h => by cases h⟩
    · rw [during hp h]
      exact ⟨rfl, Nat.zero_le _, fun h => by (cases h), fun h => by cases h⟩
    · rw [split pre mid post _ hp hm]; exact (right_resumed post).2 h
    · rw [split pre mid post _ hp hm]; exact (right_lost post).2 h
    · rw [split pre mid post _ hp hm]; exact (right_orphan post).2 h

example : Right (run [.await, .complete true, .leave, .await]) := by
  refine (C81_exact _).2 (.inr ⟨[], _, rfl, fun e he => by (cases he), .inr ⟨[], _, fun e he => by (cases he),
    .inl ⟨rfl, fun a b hab => ?_⟩⟩⟩)
  cases a with
  | nil => cases hab
  | cons x a => rw [← (List.cons.inj hab).1]; exact List.mem_cons_self ..

/-- C81 does not hold: a `with` that is not awaited is not destroyed. -/
theorem C81_violated : ¬ C81 := fun h => by
  have := (h [.leave]).2.2.1 rfl
  revert this; decide

/-- Nor if the awaiter is destroyed meanwhile, the operation is destroyed, or it is awaited twice. -/
theorem C81_more_violated : (run [.await, .leave, .complete true]).ub = true ∧
    (run [.await, .lose]).awaiter = .awaits ∧
    (run [.await, .complete true, .await]).ub = true := by decide

end Cobalt.With.Life
