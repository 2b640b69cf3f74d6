import Verif.Lost.Spec
/-!
# Lemmas about combinators whose children are destroyed
-/
namespace Cobalt.Lost

@[simp] theorem upd_apply {α : Type} (f : Nat → α) (i : Nat) (a : α) (j : Nat) :
    upd f i a j = if j = i then a else f j := rfl

/-- How many of the first `n` children wait. -/
def waitingIn (f : Nat → CS) (n : Nat) : Nat := (List.range n).countP fun j => f j == .waiting

theorem waitingIn_succ (f : Nat → CS) (n : Nat) :
    waitingIn f (n + 1) = waitingIn f n + if f n = .waiting then 1 else 0 := by
  unfold waitingIn
  rw [List.range_succ, List.countP_append]
  simp [List.countP_cons, List.countP_nil]

theorem waitingIn_congr {f g : Nat → CS} {n : Nat} (h : ∀ j, j < n → f j = g j) :
    waitingIn f n = waitingIn g n := by
  induction n with
  | zero => rfl
  | succ n ih =>
    rw [waitingIn_succ, waitingIn_succ, ih fun j hj => h j (by omega), h n (by omega)]

theorem waitingIn_upd {f : Nat → CS} {n i : Nat} {x : CS} (hi : i < n) (hf : f i = .waiting)
    (hx : x ≠ .waiting) : waitingIn (upd f i x) n + 1 = waitingIn f n := by
  induction n with
  | zero => omega
  | succ n ih =>
    rw [waitingIn_succ, waitingIn_succ]
    by_cases h : i = n
    · subst h
      rw [waitingIn_congr (g := f) fun j hj => by rw [upd_apply, if_neg (by omega)]]
      simp [hf, hx]
    · have := ih (by omega)
      rw [upd_apply, if_neg (by omega : n ≠ i)]
      omega

theorem waitingIn_zero {f : Nat → CS} {n : Nat} : waitingIn f n = 0 ↔ ∀ j, j < n → f j ≠ .waiting := by
  unfold waitingIn
  rw [List.countP_eq_zero]
  simp

/-- What is known of a state without undefined behaviour. -/
structure Inv (c : Cfg) (s : St) : Prop where
  uses : s.uses = waitingIn s.child c.n
  susp : s.awaiter = .suspended ↔ s.uses ≠ 0
  ends : s.ends = if s.uses = 0 then 1 else 0
  resumed : ∀ b, s.awaiter = .resumed b → b = s.reads c
  gather : c.kind = .gather → ∀ j, j < c.n → (s.res j = true ↔ s.child j = .done)
  join : c.kind = .join → ∀ j, j < c.n → (s.res j = true → s.child j = .done) ∧
    (s.child j = .done → s.err = none → s.res j = true)
  race : c.kind = .race → s.index ≠ none → s.err ≠ none ∨ ∃ k, k < c.n ∧ s.res k = true
  raceDone : c.kind = .race → ∀ j, j < c.n → s.child j = .done → s.index ≠ none

theorem Inv.init {c : Cfg} (hn : 0 < c.n) : Inv c (init c) := by
  have hw : waitingIn (fun _ => .waiting) c.n = c.n := by
    unfold waitingIn
    rw [List.countP_eq_length.mpr (by simp)]
    simp
  refine ⟨hw.symm, ?_, ?_, ?_, ?_, ?_, ?_, ?_⟩
  · simp [Lost.init]; omega
  · show 0 = if c.n = 0 then 1 else 0
    rw [if_neg (by omega)]
  · simp [Lost.init]
  · simp [Lost.init]
  · simp [Lost.init]
  · simp [Lost.init]
  · simp [Lost.init]

/-- Nothing but the flag of undefined behaviour changes. -/
theorem Inv.congr {c : Cfg} {s t : St} (h : Inv c s) (h1 : t.child = s.child) (h2 : t.uses = s.uses)
    (h3 : t.index = s.index) (h4 : t.err = s.err) (h5 : t.res = s.res)
    (h6 : t.awaiter = s.awaiter) (h7 : t.ends = s.ends) : Inv c t := by
  have hr : t.reads c = s.reads c := by unfold St.reads; rw [h4, h5]
  obtain ⟨a1, a2, a3, a4, a5, a6, a7, a8⟩ := h
  refine ⟨?_, ?_, ?_, ?_, ?_, ?_, ?_, ?_⟩
  · rw [h1, h2]; exact a1
  · rw [h6, h2]; exact a2
  · rw [h7, h2]; exact a3
  · intro b hb; rw [hr]; exact a4 b (h6 ▸ hb)
  · intro hk j hj; rw [h5, h1]; exact a5 hk j hj
  · intro hk j hj; rw [h5, h1, h4]; exact a6 hk j hj
  · intro hk; rw [h3, h5, h4]; exact a7 hk
  · intro hk j hj; rw [h3, h1]; exact a8 hk j hj

/-- The state in which child `i` is about to end. -/
structure Mid (c : Cfg) (s : St) (i : Nat) : Prop where
  lt : i < c.n
  wait : s.child i = .waiting
  uses : s.uses = waitingIn s.child c.n
  susp : s.awaiter = .suspended
  ends : s.ends = 0
  gather : c.kind = .gather → ∀ j, j < c.n → (s.res j = true ↔ s.child j = .done ∨ j = i)
  join : c.kind = .join → ∀ j, j < c.n → (s.res j = true → s.child j = .done ∨ j = i) ∧
    (s.child j = .done ∨ j = i → s.err = none → s.res j = true)
  race : c.kind = .race → s.index ≠ none ∧ (s.err ≠ none ∨ ∃ k, k < c.n ∧ s.res k = true)

theorem Mid.finish {c : Cfg} {s : St} {i : Nat} (h : Mid c s i) : Inv c (s.finish c i) := by
  have hu := waitingIn_upd (x := .done) h.lt h.wait (by simp)
  have huses := h.uses
  have base : Inv c
      (if s.uses - 1 = 0 then
        { s with child := upd s.child i .done, uses := s.uses - 1
                 awaiter := .resumed (St.reads { s with child := upd s.child i .done, uses := s.uses - 1 } c)
                 ends := s.ends + 1 }
       else { s with child := upd s.child i .done, uses := s.uses - 1 }) := by
    have hg : c.kind = .gather → ∀ j, j < c.n → (s.res j = true ↔ upd s.child i .done j = .done) := by
      intro hk j hj
      rw [h.gather hk j hj, upd_apply]
      split
      · rename_i he; simp [he]
      · rename_i he; simp [he]
    have hj : c.kind = .join → ∀ j, j < c.n → (s.res j = true → upd s.child i .done j = .done) ∧
        (upd s.child i .done j = .done → s.err = none → s.res j = true) := by
      intro hk j hj
      have := h.join hk j hj
      rw [upd_apply]
      split
      · rename_i he; exact ⟨fun _ => rfl, fun _ => this.2 (.inr he)⟩
      · rename_i he
        exact ⟨fun hr => (this.1 hr).resolve_right he, fun hd => this.2 (.inl hd)⟩
    split
    · rename_i h0
      refine ⟨?_, ?_, ?_, ?_, hg, hj, fun hk _ => (h.race hk).2, fun hk _ _ _ => (h.race hk).1⟩
      · show s.uses - 1 = waitingIn (upd s.child i .done) c.n; omega
      · simp [h0]
      · simp [h0, h.ends]
      · intro b hb; cases hb; rfl
    · rename_i h0
      refine ⟨?_, ?_, ?_, ?_, hg, hj, fun hk _ => (h.race hk).2, fun hk _ _ _ => (h.race hk).1⟩
      · show s.uses - 1 = waitingIn (upd s.child i .done) c.n; omega
      · simp [h0, h.susp]
      · simp [h0, h.ends]
      · intro b hb
        have : s.awaiter = .resumed b := hb
        rw [h.susp] at this; cases this
  exact base

theorem Inv.lt_ends {c : Cfg} {s : St} (h : Inv c s) {i : Nat} (hi : i < c.n)
    (hw : s.child i = .waiting) : s.awaiter = .suspended ∧ s.ends = 0 := by
  have h0 : s.uses ≠ 0 := by
    rw [h.uses]
    intro h0
    exact waitingIn_zero.mp h0 i hi hw
  exact ⟨h.susp.mpr h0, by rw [h.ends, if_neg h0]⟩

theorem Inv.step {c : Cfg} {s : St} (h : Inv c s) (e : Ev) : Inv c (s.step c e) := by
  cases e with
  | cancel =>
    simp only [St.step]
    split
    · exact h.congr rfl rfl rfl rfl rfl rfl rfl
    · exact h
  | interrupt =>
    simp only [St.step]
    split
    · split
      · exact h.congr rfl rfl rfl rfl rfl rfl rfl
      · exact h
    · exact h
  | lost i =>
    simp only [St.step]
    split
    · rename_i hg
      simp only [Bool.and_eq_true, Bool.not_eq_true', decide_eq_true_eq, beq_iff_eq] at hg
      obtain ⟨⟨-, hi⟩, hw⟩ := hg
      obtain ⟨hs, he⟩ := h.lt_ends hi hw
      have hu := waitingIn_upd (x := .lost) hi hw (by simp)
      have huses := h.uses
      have hc : ∀ j, (upd s.child i .lost j = .done ↔ s.child j = .done) := by
        intro j; rw [upd_apply]; split
        · rename_i h'; rw [h', hw]; simp
        · rfl
      have hg : c.kind = .gather → ∀ j, j < c.n → (s.res j = true ↔ upd s.child i .lost j = .done) :=
        fun hk j hj => by rw [hc]; exact h.gather hk j hj
      have hj : c.kind = .join → ∀ j, j < c.n → (s.res j = true → upd s.child i .lost j = .done) ∧
          (upd s.child i .lost j = .done → s.err = none → s.res j = true) :=
        fun hk j hj => by rw [hc]; exact h.join hk j hj
      have hr : c.kind = .race → ∀ j, j < c.n → upd s.child i .lost j = .done → s.index ≠ none :=
        fun hk j hj hd => h.raceDone hk j hj ((hc j).mp hd)
      split
      · rename_i h0
        have h0 : s.uses - 1 = 0 := h0
        refine ⟨?_, ?_, ?_, ?_, hg, hj, h.race, hr⟩
        · show s.uses - 1 = waitingIn (upd s.child i .lost) c.n; omega
        · simp [h0]
        · simp [h0, he]
        · intro b hb; cases hb
      · rename_i h0
        have h0 : ¬ s.uses - 1 = 0 := h0
        refine ⟨?_, ?_, ?_, ?_, hg, hj, h.race, hr⟩
        · show s.uses - 1 = waitingIn (upd s.child i .lost) c.n; omega
        · simp [h0, hs]
        · simp [h0, he]
        · intro b hb
          have : s.awaiter = .resumed b := hb
          rw [hs] at this; cases this
    · exact h
  | fin i o =>
    simp only [St.step]
    split
    · rename_i hg
      simp only [Bool.and_eq_true, Bool.not_eq_true', decide_eq_true_eq, beq_iff_eq] at hg
      obtain ⟨⟨-, hi⟩, hw⟩ := hg
      obtain ⟨hs, he⟩ := h.lt_ends hi hw
      unfold St.complete
      cases hk : c.kind with
      | gather =>
        refine Mid.finish ⟨hi, hw, h.uses, hs, he, fun _ j hj => ?_, ?_, ?_⟩
        · have := h.gather hk j hj
          simp only [upd_apply]
          split
          · rename_i h'; simp [h']
          · rename_i h'; simp [h', this]
        all_goals (intro h'; rw [hk] at h'; cases h')
      | join =>
        cases o with
        | none =>
          refine Mid.finish ⟨hi, hw, h.uses, hs, he, ?_, fun _ j hj => ?_, ?_⟩
          · intro h'; rw [hk] at h'; cases h'
          · have := h.join hk j hj
            simp only [upd_apply]
            split
            · rename_i h'; simp [h']
            · rename_i h'; simpa [h'] using this
          all_goals (intro h'; rw [hk] at h'; cases h')
        | some e =>
          refine Mid.finish ⟨hi, hw, h.uses, hs, he, ?_, fun _ j hj => ⟨fun hr => ?_, fun _ hn => ?_⟩,
            ?_⟩
          · intro h'; rw [hk] at h'; cases h'
          · exact .inl ((h.join hk j hj).1 hr)
          · simp only [St.emit] at hn
            cases herr : s.err <;> simp [herr] at hn
          all_goals (intro h'; rw [hk] at h'; cases h')
      | race =>
        by_cases hix : s.index.isNone = true
        · simp only [hix, if_true]
          refine Mid.finish ⟨hi, hw, h.uses, hs, he, ?_, ?_, fun _ => ⟨?_, ?_⟩⟩
          · intro h'; rw [hk] at h'; cases h'
          · intro h'; rw [hk] at h'; cases h'
          · simp [St.emit, St.interruptWorking]
          · cases o with
            | none => exact .inr ⟨i, hi, by simp [St.emit, St.interruptWorking]⟩
            | some e => exact .inl (by simp [St.emit, St.interruptWorking])
        · simp only [hix, if_false, Bool.false_eq_true]
          have hn : s.index ≠ none := by intro hn; rw [hn] at hix; simp at hix
          refine Mid.finish ⟨hi, hw, h.uses, hs, he, ?_, ?_, fun _ => ⟨hn, h.race hk hn⟩⟩
          · intro h'; rw [hk] at h'; cases h'
          · intro h'; rw [hk] at h'; cases h'
    · exact h

theorem Inv.foldl {c : Cfg} : ∀ (es : List Ev) {s : St}, Inv c s → Inv c (es.foldl (St.step c) s)
  | [], _, h => h
  | e :: es, _, h => Inv.foldl es (h.step e)

theorem Inv.run {c : Cfg} (hn : 0 < c.n) (es : List Ev) : Inv c (run c es) :=
  Inv.foldl es (Inv.init hn)

/-! ### Undefined behaviour -/

theorem step_of_ub {c : Cfg} {s : St} (h : s.ub = true) (e : Ev) : s.step c e = s := by
  cases e <;> simp [St.step, h]

theorem foldl_of_ub {c : Cfg} {s : St} (h : s.ub = true) (es : List Ev) :
    es.foldl (St.step c) s = s := by
  induction es with
  | nil => rfl
  | cons e es ih => rw [List.foldl_cons, step_of_ub h]; exact ih

theorem ub_split {c : Cfg} : ∀ (es : List Ev) (s : St), s.ub = false →
    ((es.foldl (St.step c) s).ub = true ↔ ∃ pre e post, es = pre ++ e :: post ∧
      (pre.foldl (St.step c) s).ub = false ∧ ((pre.foldl (St.step c) s).step c e).ub = true)
  | [], s, h => by
    constructor
    · intro h'; rw [List.foldl_nil, h] at h'; cases h'
    · rintro ⟨pre, e, post, he, -⟩
      cases pre <;> cases he
  | e :: es, s, h => by
    rw [List.foldl_cons]
    cases hu : (s.step c e).ub with
    | true =>
      rw [foldl_of_ub hu]
      exact ⟨fun _ => ⟨[], e, es, rfl, h, hu⟩, fun _ => hu⟩
    | false =>
      rw [ub_split es _ hu]
      constructor
      · rintro ⟨pre, e', post, rfl, h1, h2⟩
        exact ⟨e :: pre, e', post, rfl, h1, h2⟩
      · rintro ⟨pre, e', post, he, h1, h2⟩
        cases pre with
        | nil =>
          obtain ⟨rfl, rfl⟩ : e = e' ∧ es = post := by simpa using he
          rw [List.foldl_nil, hu] at h2; cases h2
        | cons x pre =>
          obtain ⟨rfl, rfl⟩ : e = x ∧ es = pre ++ e' :: post := by simpa using he
          exact ⟨pre, e', post, rfl, h1, h2⟩

theorem ub_prefix {c : Cfg} {s : St} {pre post : List Ev}
    (h : ((pre ++ post).foldl (St.step c) s).ub = false) : (pre.foldl (St.step c) s).ub = false := by
  cases hu : (pre.foldl (St.step c) s).ub with
  | false => rfl
  | true => rw [List.foldl_append, foldl_of_ub hu, hu] at h; cases h

/-! ### The state of a child and the history -/

theorem finish_child {c : Cfg} {s : St} {i : Nat} : (s.finish c i).child = upd s.child i .done := by
  unfold St.finish
  dsimp only
  split <;> rfl

theorem complete_child {c : Cfg} {s : St} {i : Nat} {o : Out} :
    (s.complete c i o).child = upd s.child i .done := by
  unfold St.complete
  split
  · rw [finish_child]
  · split
    · rw [finish_child]
    · dsimp only; rw [finish_child]; rfl
  · dsimp only
    rw [finish_child]
    simp only [St.emit, St.interruptWorking]
    split <;> rfl

theorem step_child_fin {c : Cfg} {s : St} (hu : s.ub = false) {i j : Nat} {o : Out} (hi : i < c.n) :
    (s.step c (.fin j o)).child i = if j = i ∧ s.child i = .waiting then .done else s.child i := by
  simp only [St.step]
  split
  · rename_i hg
    simp only [Bool.and_eq_true, Bool.not_eq_true', decide_eq_true_eq, beq_iff_eq] at hg
    rw [complete_child, upd_apply]
    by_cases h : j = i
    · subst h; simp [hg.2]
    · rw [if_neg (fun e => h e.symm), if_neg (fun e => h e.1)]
  · rename_i hg
    rw [if_neg]
    rintro ⟨rfl, hw⟩
    exact hg (by simp [hu, hi, hw])

theorem step_child_lost {c : Cfg} {s : St} (hu : s.ub = false) {i j : Nat} (hi : i < c.n) :
    (s.step c (.lost j)).child i = if j = i ∧ s.child i = .waiting then .lost else s.child i := by
  simp only [St.step]
  split
  · rename_i hg
    simp only [Bool.and_eq_true, Bool.not_eq_true', decide_eq_true_eq, beq_iff_eq] at hg
    have : ∀ s' : St, s'.child = upd s.child j .lost →
        s'.child i = if j = i ∧ s.child i = .waiting then .lost else s.child i := by
      intro s' h'
      rw [h', upd_apply]
      by_cases h : j = i
      · subst h; simp [hg.2]
      · rw [if_neg (fun e => h e.symm), if_neg (fun e => h e.1)]
    split <;> exact this _ rfl
  · rename_i hg
    rw [if_neg]
    rintro ⟨rfl, hw⟩
    exact hg (by simp [hu, hi, hw])

theorem step_child_cancel {c : Cfg} {s : St} : (s.step c .cancel).child = s.child := by
  simp only [St.step]; split <;> rfl

theorem step_child_interrupt {c : Cfg} {s : St} : (s.step c .interrupt).child = s.child := by
  simp only [St.step]
  split
  · split <;> rfl
  · rfl

/-- The state of a child that ended as `o`. -/
def csOf : Option Bool → CS
  | none => .waiting
  | some true => .done
  | some false => .lost

theorem foldl_child {c : Cfg} {i : Nat} (hi : i < c.n) : ∀ (es : List Ev) (s : St),
    (es.foldl (St.step c) s).ub = false →
    (es.foldl (St.step c) s).child i
      = if s.child i = .waiting then csOf (firstEnd i es) else s.child i
  | [], s, _ => by
    rw [List.foldl_nil]
    split
    · rename_i h; rw [h]; rfl
    · rfl
  | e :: es, s, h => by
    have hu : s.ub = false := ub_prefix (pre := []) h
    rw [List.foldl_cons] at h ⊢
    rw [foldl_child hi es _ h]
    cases e with
    | fin j o =>
      rw [step_child_fin hu hi]
      simp only [firstEnd]
      by_cases hj : j = i <;> by_cases hw : s.child i = .waiting <;> simp [hj, hw, csOf]
    | lost j =>
      rw [step_child_lost hu hi]
      simp only [firstEnd]
      by_cases hj : j = i <;> by_cases hw : s.child i = .waiting <;> simp [hj, hw, csOf]
    | cancel => rw [step_child_cancel]; rfl
    | interrupt => rw [step_child_interrupt]; rfl

theorem run_child {c : Cfg} {i : Nat} (hi : i < c.n) {es : List Ev} (h : (run c es).ub = false) :
    (run c es).child i = csOf (firstEnd i es) := by
  rw [run, foldl_child hi es _ h]
  rfl

theorem run_lost {c : Cfg} {es : List Ev} (h : (run c es).ub = false) {i : Nat} :
    Destroyed c.n es i ↔ i < c.n ∧ (run c es).child i = .lost := by
  constructor
  · rintro ⟨hi, he⟩; exact ⟨hi, by rw [run_child hi h, he]; rfl⟩
  · rintro ⟨hi, he⟩
    refine ⟨hi, ?_⟩
    rw [run_child hi h] at he
    revert he
    cases firstEnd i es with
    | none => intro he; cases he
    | some b => cases b <;> intro he <;> first | rfl | cases he

theorem run_waits {c : Cfg} {es : List Ev} (h : (run c es).ub = false) {i : Nat} :
    Waits c.n es i ↔ i < c.n ∧ (run c es).child i = .waiting := by
  constructor
  · rintro ⟨hi, he⟩; exact ⟨hi, by rw [run_child hi h, he]; rfl⟩
  · rintro ⟨hi, he⟩
    refine ⟨hi, ?_⟩
    rw [run_child hi h] at he
    revert he
    cases firstEnd i es with
    | none => intro; rfl
    | some b => cases b <;> intro he <;> cases he

/-- The awaiter is suspended while there is a child that waits. -/
theorem run_suspended {c : Cfg} (hn : 0 < c.n) {es : List Ev} (h : (run c es).ub = false) :
    (run c es).awaiter = .suspended ↔ ∃ i, Waits c.n es i := by
  have hi := Inv.run hn es
  rw [hi.susp, hi.uses, Ne, waitingIn_zero]
  constructor
  · intro hne
    apply Classical.byContradiction
    intro hno
    exact hne fun j hj hw => hno ⟨j, (run_waits h).mpr ⟨hj, hw⟩⟩
  · rintro ⟨i, hw⟩ hall
    have := (run_waits h).mp hw
    exact hall i this.1 this.2

theorem finish_ub {c : Cfg} {s : St} {i : Nat} : (s.finish c i).ub = s.ub := by
  unfold St.finish; dsimp only; split <;> rfl

theorem emit_safe {c : Cfg} {s : St} {p : Nat → Bool} (h : ∀ j, c.dangles j = false) :
    (s.emit c p).ub = s.ub := by
  simp [St.emit, h]

theorem emit_ub_noLost {c : Cfg} {s : St} {p : Nat → Bool} (h : ∀ j, j < c.n → s.child j ≠ .lost) :
    (s.emit c p).ub = s.ub := by
  have : ((List.range c.n).any fun j => p j && s.child j == .lost && c.dangles j) = false := by
    rw [List.any_eq_false]
    intro j hj
    have := h j (List.mem_range.mp hj)
    simp [this]
  simp [St.emit, this]

theorem interruptWorking_ub {c : Cfg} {s : St} :
    (s.interruptWorking c).ub = true ↔ s.ub = true ∨ ∃ j, j < c.n ∧ s.child j = .lost := by
  simp [St.interruptWorking]

theorem interruptWorking_noLost {c : Cfg} {s : St} (h : ∀ j, j < c.n → s.child j ≠ .lost) :
    (s.interruptWorking c).ub = s.ub := by
  cases hu : s.ub with
  | true => rw [interruptWorking_ub]; exact .inl hu
  | false =>
    cases hx : (s.interruptWorking c).ub with
    | false => rfl
    | true =>
      rw [interruptWorking_ub] at hx
      rcases hx with hx | ⟨j, hj, hl⟩
      · rw [hu] at hx; cases hx
      · exact absurd hl (h j hj)

/-- Completing a child with no child destroyed is defined. -/
theorem complete_noLost {c : Cfg} {s : St} {i : Nat} {o : Out}
    (h : ∀ j, j < c.n → s.child j ≠ .lost) : (s.complete c i o).ub = s.ub := by
  unfold St.complete
  split
  · rw [finish_ub]
  · split
    · rw [finish_ub]
    · dsimp only; rw [finish_ub]; exact emit_ub_noLost h
  · dsimp only
    rw [finish_ub]
    dsimp only
    rw [emit_ub_noLost, interruptWorking_noLost]
    · dsimp only; split <;> rfl
    · split <;> exact h
    · simp only [St.interruptWorking]; split <;> exact h

theorem step_noLost {c : Cfg} {s : St} {e : Ev} (h : ∀ j, j < c.n → s.child j ≠ .lost) :
    (s.step c e).ub = s.ub := by
  cases e with
  | fin i o => simp only [St.step]; split
               · exact complete_noLost h
               · rfl
  | lost i =>
    simp only [St.step]
    split
    · split <;> rfl
    · rfl
  | cancel => simp only [St.step]; split
              · exact emit_ub_noLost h
              · rfl
  | interrupt =>
    simp only [St.step]
    split
    · split
      · exact interruptWorking_noLost h
      · rfl
    · rfl

theorem step_ub_lost {c : Cfg} {s : St} {i : Nat} : (s.step c (.lost i)).ub = s.ub := by
  simp only [St.step]
  split
  · split <;> rfl
  · rfl

/-- `gather` and `join` with awaitables that leave no handler behind. -/
theorem step_safe {c : Cfg} {s : St} {e : Ev} (hk : c.kind ≠ .race) (h : ∀ j, c.dangles j = false) :
    (s.step c e).ub = s.ub := by
  cases e with
  | fin i o =>
    simp only [St.step]
    split
    · unfold St.complete
      split
      · rw [finish_ub]
      · split
        · rw [finish_ub]
        · dsimp only; rw [finish_ub]; exact emit_safe h
      · rename_i hr; exact absurd hr hk
    · rfl
  | lost i => exact step_ub_lost
  | cancel => simp only [St.step]; split
              · exact emit_safe h
              · rfl
  | interrupt =>
    simp only [St.step]
    split
    · first
      | rfl
      | (split
         · rename_i hr; exact absurd hr hk
         · rfl)
    · rfl

theorem foldl_safe {c : Cfg} (hk : c.kind ≠ .race) (h : ∀ j, c.dangles j = false) :
    ∀ (es : List Ev) (s : St), (es.foldl (St.step c) s).ub = s.ub
  | [], _ => rfl
  | e :: es, s => by rw [List.foldl_cons, foldl_safe hk h es, step_safe hk h]

/-- When `race` calls into a destroyed frame. -/
theorem race_step {c : Cfg} {s : St} {e : Ev} (hk : c.kind = .race) (h : ∀ j, c.dangles j = false)
    (hu : s.ub = false) : (s.step c e).ub = true ↔
      (∃ j, j < c.n ∧ s.child j = .lost) ∧
      ((∃ i o, e = .fin i o ∧ i < c.n ∧ s.child i = .waiting) ∨
        (e = .interrupt ∧ s.awaiter = .suspended)) := by
  cases e with
  | fin i o =>
    simp only [St.step]
    split
    · rename_i hg
      simp only [Bool.and_eq_true, Bool.not_eq_true', decide_eq_true_eq, beq_iff_eq] at hg
      have h1 : ((s.complete c i o).ub = true) ↔ ∃ j, j < c.n ∧ s.child j = .lost := by
        unfold St.complete
        simp only [hk, finish_ub]
        rw [emit_safe h, interruptWorking_ub]
        dsimp only
        by_cases hix : s.index.isNone = true
        · simp only [hix, if_true]; simp [hu]
        · simp only [hix, if_false, Bool.false_eq_true]; simp [hu]
      rw [h1]
      exact ⟨fun hl => ⟨hl, .inl ⟨i, o, rfl, hg.1.2, hg.2⟩⟩, fun hl => hl.1⟩
    · rename_i hg
      rw [hu]
      constructor
      · intro h'; cases h'
      · rintro ⟨-, ⟨i', o', he, h1, h2⟩ | ⟨he, -⟩⟩
        · cases he
          exact absurd (by simp [hu, h1, h2]) hg
        · cases he
  | lost i =>
    rw [step_ub_lost, hu]
    constructor
    · intro h'; cases h'
    · rintro ⟨-, ⟨i', o', he, -⟩ | ⟨he, -⟩⟩ <;> cases he
  | cancel =>
    have : (s.step c .cancel).ub = false := by
      simp only [St.step]; split
      · rw [emit_safe h, hu]
      · exact hu
    rw [this]
    constructor
    · intro h'; cases h'
    · rintro ⟨-, ⟨i', o', he, -⟩ | ⟨he, -⟩⟩ <;> cases he
  | interrupt =>
    simp only [St.step, hk, hu, Bool.not_false, Bool.true_and]
    by_cases hs : s.awaiter = .suspended
    · simp [hs, interruptWorking_ub, hu]
    · simp [hs, hu]

/-! ### The exception of a join -/

theorem finish_err {c : Cfg} {s : St} {i : Nat} : (s.finish c i).err = s.err := by
  unfold St.finish; dsimp only; split <;> rfl

theorem join_err_step {c : Cfg} (hk : c.kind = .join) {s : St} (hu : s.ub = false) (e : Ev) :
    (s.step c e).err = match s.err, e with
      | some x, _ => some x
      | none, .fin i o => if i < c.n ∧ s.child i = .waiting then o else none
      | none, _ => none := by
  cases e with
  | fin i o =>
    simp only [St.step]
    by_cases hg : i < c.n ∧ s.child i = .waiting
    · rw [if_pos (by simp [hu, hg.1, hg.2])]
      unfold St.complete
      simp only [hk]
      cases o with
      | none =>
        dsimp only
        rw [finish_err]
        dsimp only
        cases s.err <;> simp
      | some e =>
        dsimp only
        rw [finish_err]
        simp only [St.emit]
        cases s.err <;> simp [hg.1, hg.2]
    · rw [if_neg (by simpa [hu] using hg)]
      cases s.err <;> simp [hg]
  | lost i =>
    have : (s.step c (.lost i)).err = s.err := by
      simp only [St.step]
      split
      · split <;> rfl
      · rfl
    rw [this]; cases s.err <;> rfl
  | cancel =>
    have : (s.step c .cancel).err = s.err := by
      simp only [St.step]; split <;> rfl
    rw [this]; cases s.err <;> rfl
  | interrupt =>
    have : (s.step c .interrupt).err = s.err := by
      simp only [St.step]
      split
      · split <;> rfl
      · rfl
    rw [this]; cases s.err <;> rfl

theorem join_err_foldl {c : Cfg} (hk : c.kind = .join) (hd : ∀ j, c.dangles j = false) :
    ∀ (es : List Ev) (s : St) (ended : List Nat), s.ub = false →
    (∀ i, i < c.n → (i ∈ ended ↔ s.child i ≠ .waiting)) →
    (es.foldl (St.step c) s).err = match s.err with
      | some x => some x
      | none => firstThrow c.n ended es
  | [], s, _, _, _ => by rw [List.foldl_nil]; cases s.err <;> rfl
  | e :: es, s, ended, hu, hend => by
    rw [List.foldl_cons]
    have hu' : (s.step c e).ub = false := (step_safe (by rw [hk]; simp) hd).trans hu
    have herr := join_err_step hk hu e
    cases e with
    | fin i o =>
      by_cases hg : i < c.n ∧ s.child i = .waiting
      · have hni : i ∉ ended := fun hm => (hend i hg.1).mp hm hg.2
        rw [join_err_foldl hk hd es _ (i :: ended) hu' ?_, herr]
        · cases s.err with
          | some x => rfl
          | none =>
            simp only [firstThrow, hg.1, hg.2, hni, not_false_eq_true, and_self, if_true]
            cases o <;> rfl
        · intro j hj
          rw [step_child_fin hu hj, List.mem_cons, hend j hj]
          by_cases h : i = j
          · subst h; simp [hg.2]
          · rw [if_neg (fun h' => h h'.1)]
            exact ⟨fun h' => h'.resolve_left fun e => h e.symm, .inr⟩
      · rw [join_err_foldl hk hd es _ ended hu' ?_, herr]
        · cases s.err with
          | some x => rfl
          | none =>
            have : ¬ (i < c.n ∧ i ∉ ended) := fun h' =>
              hg ⟨h'.1, Classical.byContradiction fun h'' => h'.2 ((hend i h'.1).mpr h'')⟩
            simp only [firstThrow, hg, this, if_false]
        · intro j hj
          rw [step_child_fin hu hj, hend j hj, if_neg]
          rintro ⟨rfl, hw⟩
          exact hg ⟨hj, hw⟩
    | lost i =>
      rw [join_err_foldl hk hd es _ (i :: ended) hu' ?_, herr]
      · cases s.err <;> rfl
      · intro j hj
        rw [step_child_lost hu hj, List.mem_cons, hend j hj]
        by_cases h : i = j
        · subst h
          by_cases hw : s.child i = .waiting <;> simp [hw]
        · rw [if_neg (fun h' => h h'.1)]
          exact ⟨fun h' => h'.resolve_left fun e => h e.symm, .inr⟩
    | cancel =>
      rw [join_err_foldl hk hd es _ ended hu' ?_, herr]
      · cases s.err <;> rfl
      · intro j hj; rw [step_child_cancel]; exact hend j hj
    | interrupt =>
      rw [join_err_foldl hk hd es _ ended hu' ?_, herr]
      · cases s.err <;> rfl
      · intro j hj; rw [step_child_interrupt]; exact hend j hj

/-! ### Quiet histories -/

theorem lost_only {c : Cfg} : ∀ (es : List Ev) (s : St), (∀ e, e ∈ es → ∃ i, e = .lost i) →
    s.ub = false → s.awaiter ≠ .resumed true →
    (es.foldl (St.step c) s).ub = false ∧ (es.foldl (St.step c) s).awaiter ≠ .resumed true
  | [], _, _, hu, ha => ⟨hu, ha⟩
  | e :: es, s, h, hu, ha => by
    rw [List.foldl_cons]
    obtain ⟨i, rfl⟩ := h e (List.mem_cons_self ..)
    refine lost_only es _ (fun e he => h e (List.mem_cons_of_mem _ he)) (step_ub_lost.trans hu) ?_
    simp only [St.step]
    split
    · split
      · intro hb; cases hb
      · exact ha
    · exact ha

theorem noLost_step {c : Cfg} {s : St} {e : Ev} (he : ∀ i, e ≠ .lost i)
    (h : ∀ j, j < c.n → s.child j ≠ .lost) : ∀ j, j < c.n → (s.step c e).child j ≠ .lost := by
  intro j hj
  cases hu : s.ub with
  | true => rw [step_of_ub hu]; exact h j hj
  | false =>
    cases e with
    | fin i o =>
      rw [step_child_fin hu hj]
      split
      · simp
      · exact h j hj
    | lost i => exact absurd rfl (he i)
    | cancel => rw [step_child_cancel]; exact h j hj
    | interrupt => rw [step_child_interrupt]; exact h j hj

/-- Without a destroyed child no missing result is read. -/
theorem Inv.noLost {c : Cfg} {s : St} (hn : 0 < c.n) (h : Inv c s)
    (hl : ∀ j, j < c.n → s.child j ≠ .lost) : s.awaiter ≠ .resumed true := by
  intro ha
  have h0 : s.uses = 0 := Classical.byContradiction fun h0 => by
    rw [h.susp.mpr h0] at ha; cases ha
  rw [h.uses, waitingIn_zero] at h0
  have hd : ∀ j, j < c.n → s.child j = .done := by
    intro j hj
    have h1 := h0 j hj
    have h2 := hl j hj
    revert h1 h2
    cases s.child j <;> simp
  have hr := h.resumed true ha
  unfold St.reads at hr
  cases hk : c.kind with
  | gather =>
    simp only [hk] at hr
    have := hr.symm
    simp only [List.any_eq_true, List.mem_range, Bool.not_eq_true'] at this
    obtain ⟨j, hj, hx⟩ := this
    rw [(h.gather hk j hj).mpr (hd j hj)] at hx; cases hx
  | join =>
    simp only [hk] at hr
    have := hr.symm
    simp only [Bool.and_eq_true, List.any_eq_true, List.mem_range, Bool.not_eq_true',
      Option.isNone_iff_eq_none] at this
    obtain ⟨he, j, hj, hx⟩ := this
    rw [(h.join hk j hj).2 (hd j hj) he] at hx; cases hx
  | race =>
    simp only [hk] at hr
    have := hr.symm
    simp only [Bool.and_eq_true, List.all_eq_true, List.mem_range, Bool.not_eq_true',
      Option.isNone_iff_eq_none] at this
    obtain ⟨he, hx⟩ := this
    rcases h.race hk (h.raceDone hk 0 hn (hd 0 hn)) with h' | ⟨k, hk', hr'⟩
    · exact h' he
    · rw [hx k hk'] at hr'; cases hr'

theorem quiet_run {c : Cfg} (hn : 0 < c.n) {es : List Ev} (hq : Quiet es) :
    ∀ {s : St}, Inv c s → s.ub = false → (∀ j, j < c.n → s.child j ≠ .lost) →
    (es.foldl (St.step c) s).ub = false ∧ (es.foldl (St.step c) s).awaiter ≠ .resumed true := by
  induction hq with
  | losts es h => intro s hi hu hl; exact lost_only es s h hu (hi.noLost hn hl)
  | cons e es he _ ih =>
    intro s hi hu hl
    rw [List.foldl_cons]
    exact ih (hi.step e) ((step_noLost hl).trans hu) (noLost_step he hl)

end Cobalt.Lost
