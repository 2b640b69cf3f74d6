import Verif.Comb.Spec
/-! The structural invariant of the combinators. -/
namespace Cobalt.Comb

/-- What a frame of the stack, or the code running now, is. -/
inductive Tag where
  | ask (k : Nat)
  | start (k : Nat)
  | loop
  | co (c : Cont)
deriving DecidableEq, Repr

def Frame.tag : Frame → Tag
  | .asking k => .ask k
  | .starting k => .start k
  | .intr _ c _ => .co c
  | .emit _ c _ _ => .co c

/-- Part of starting the children. -/
def Tag.isStart : Tag → Bool
  | .ask _ | .start _ | .loop | .co (.finish _ true) | .co .startEnd => true
  | _ => false

/-- The child whose end is being executed. -/
def Tag.fin? : Tag → Option Nat
  | .co (.finish i _) => some i
  | _ => none

def St.tags (s : St) : List Tag := s.stack.map Frame.tag

structure Inv (c : Cfg) (s : St) (T : List Tag) : Prop where
  starts : T.countP Tag.isStart = if s.phase = .starting then 1 else 0
  fins : (T.filterMap Tag.fin?).Nodup
  running : ∀ i, s.child i = .running ↔ i ∈ T.filterMap Tag.fin?
  asking : ∀ i, s.child i = .asking ↔ Tag.ask i ∈ T
  started : ∀ i, Tag.start i ∈ T → s.child i = .waiting ∨ s.child i = .running ∨ s.child i = .finished
  uses : ∃ l : List Nat, l.Nodup ∧ (∀ i, i ∈ l ↔ (s.child i).active = true) ∧ l.length = s.uses
  todoNodup : s.todo.Nodup
  todo : ∀ i ∈ s.todo, s.child i = .idle ∧ i ∈ c.order
  known : ∀ i, s.child i ≠ .idle → i ∈ c.order
  all : c.kind ≠ .race → s.phase ≠ .before → ∀ i ∈ c.order, s.child i = .idle → i ∈ s.todo
  todoEnd : c.kind ≠ .race → s.phase ≠ .starting → s.todo = []
  before : s.phase = .before → s.uses = 0 ∧ T = [] ∧ s.todo = [] ∧ ∀ i, s.child i = .idle
  susp : s.phase = .suspended → s.uses ≠ 0
  over : s.over → s.uses = 0
  resumes : s.resumes = if s.phase = .resumed then 1 else 0
  startEnd : Tag.co .startEnd ∈ T → s.todo = []

@[simp] theorem fin_loop (T : List Tag) : (Tag.loop :: T).filterMap Tag.fin? = T.filterMap Tag.fin? := rfl
@[simp] theorem fin_ask (k : Nat) (T : List Tag) : (Tag.ask k :: T).filterMap Tag.fin? = T.filterMap Tag.fin? := rfl
@[simp] theorem fin_start (k : Nat) (T : List Tag) :
    (Tag.start k :: T).filterMap Tag.fin? = T.filterMap Tag.fin? := rfl
@[simp] theorem fin_startEnd (T : List Tag) :
    (Tag.co .startEnd :: T).filterMap Tag.fin? = T.filterMap Tag.fin? := rfl
@[simp] theorem fin_finish (i : Nat) (b : Bool) (T : List Tag) :
    (Tag.co (.finish i b) :: T).filterMap Tag.fin? = i :: T.filterMap Tag.fin? := rfl

theorem Inv.phase_of {c : Cfg} {s : St} {t : Tag} {T : List Tag} (h : Inv c s (t :: T)) (h1 : t.isStart = true) :
    s.phase = .starting := by
  have := h.starts
  by_cases hp : s.phase = .starting
  · exact hp
  · rw [if_neg hp, List.countP_cons, if_pos h1] at this; omega

theorem Inv.init (c : Cfg) : Inv c {} [] := by
  constructor
  case uses => exact ⟨[], by simp [CS.active]⟩
  all_goals simp [St.over]

/-- Changes to the results and logs do not matter. -/
theorem Inv.congr {c : Cfg} {s t : St} {T : List Tag} (h : Inv c s T) (h1 : t.child = s.child)
    (h2 : t.uses = s.uses) (h3 : t.phase = s.phase) (h4 : t.todo = s.todo) (h5 : t.resumes = s.resumes) :
    Inv c t T := by
  have ho : t.over ↔ s.over := by unfold St.over; rw [h3]
  constructor
  · rw [h3]; exact h.starts
  · exact h.fins
  · rw [h1]; exact h.running
  · rw [h1]; exact h.asking
  · rw [h1]; exact h.started
  · rw [h1, h2]; exact h.uses
  · rw [h4]; exact h.todoNodup
  · rw [h1, h4]; exact h.todo
  · rw [h1]; exact h.known
  · rw [h1, h3, h4]; exact h.all
  · rw [h3, h4]; exact h.todoEnd
  · rw [h1, h2, h3, h4]; exact h.before
  · rw [h2, h3]; exact h.susp
  · rw [ho, h2]; exact h.over
  · rw [h3, h5]; exact h.resumes
  · rw [h4]; exact h.startEnd

/-- A call of code that is neither the start nor the end of a child. -/
theorem Inv.push {c : Cfg} {s : St} {T : List Tag} (h : Inv c s T) {co : Cont} (hp : s.phase ≠ .before)
    (hc : co = .ext ∨ ∃ i, co = .txn i) : Inv c s (.co co :: T) := by
  have h1 : (Tag.co co).isStart = false := by rcases hc with rfl | ⟨i, rfl⟩ <;> rfl
  have h2 : (Tag.co co).fin? = none := by rcases hc with rfl | ⟨i, rfl⟩ <;> rfl
  have h3 : co ≠ .startEnd := by rcases hc with rfl | ⟨i, rfl⟩ <;> simp
  cases h
  constructor <;> (try simp only [List.countP_cons, List.filterMap_cons, h1, h2, List.mem_cons]) <;>
    first
      | assumption
      | grind

theorem Inv.pop {c : Cfg} {s : St} {T : List Tag} {co : Cont} (h : Inv c s (.co co :: T))
    (hc : co = .ext ∨ ∃ i, co = .txn i) : Inv c s T := by
  have h1 : (Tag.co co).isStart = false := by rcases hc with rfl | ⟨i, rfl⟩ <;> rfl
  have h2 : (Tag.co co).fin? = none := by rcases hc with rfl | ⟨i, rfl⟩ <;> rfl
  cases h
  simp only [List.countP_cons, List.filterMap_cons, h1, h2, List.mem_cons] at *
  constructor <;>
    first
      | assumption
      | grind

/-- The end of child `i`. -/
theorem Inv.finish {c : Cfg} {s : St} {T : List Tag} {i : Nat} {b : Bool}
    (h : Inv c s (.co (.finish i b) :: T)) :
    Inv c (s.finish i) (if b then .loop :: T else T) := by
  obtain ⟨l, hl1, hl2, hl3⟩ := h.uses
  have hr : s.child i = .running := (h.running i).2 (by simp [Tag.fin?])
  have hi : i ∈ l := (hl2 i).2 (by simp [hr, CS.active])
  have hu : 0 < s.uses := by rw [← hl3]; exact List.length_pos_of_mem hi
  have hph : s.phase = .starting ∨ s.phase = .suspended := by
    have h1 := h.over
    have h2 := h.before
    unfold St.over at h1
    cases hp : s.phase <;> simp_all
  have hnin : i ∉ T.filterMap Tag.fin? := by
    have := h.fins
    simp only [List.filterMap_cons, Tag.fin?, List.nodup_cons] at this
    exact this.1
  have hfin : T.filterMap Tag.fin? = (if b then Tag.loop :: T else T).filterMap Tag.fin? := by
    cases b <;> simp
  have hmem : ∀ t, t ≠ Tag.loop → (t ∈ (if b then Tag.loop :: T else T) ↔ t ∈ T) := by
    intro t ht; cases b <;> simp [ht]
  -- the state before the awaiter is resumed
  have key : ∀ t : St, t.child = upd s.child i .finished → t.uses = s.uses - 1 → t.todo = s.todo →
      ((t.phase = s.phase ∧ (s.phase = .starting ∨ s.uses - 1 ≠ 0) ∧ t.resumes = s.resumes) ∨
       (s.phase = .suspended ∧ t.phase = .resumed ∧ s.uses - 1 = 0 ∧ t.resumes = s.resumes + 1)) →
      Inv c t (if b then .loop :: T else T) := by
    intro t e1 e2 e3 e4
    have hb : b = true → s.phase = .starting := by
      intro hb
      have := h.starts
      subst hb
      exact h.phase_of rfl
    constructor
    · have := h.starts
      cases b
      · simp only [Tag.isStart, List.countP_cons, Bool.false_eq_true, if_false, Nat.add_zero] at this ⊢
        rcases e4 with ⟨e4, -, -⟩ | ⟨e4, e5, -⟩
        · rw [e4]; exact this
        · rw [e5]; rw [e4] at this; exact this
      · have hb := hb rfl
        simp only [Tag.isStart, List.countP_cons, if_true] at this ⊢
        rcases e4 with ⟨e4, -, -⟩ | ⟨e4, e5, -⟩
        · rw [e4]; exact this
        · rw [hb] at e4; exact absurd e4 (by simp)
    · rw [← hfin]
      have := h.fins
      simp only [List.filterMap_cons, Tag.fin?, List.nodup_cons] at this
      exact this.2
    · intro j
      have := h.running j
      rw [← hfin, e1]
      simp only [List.filterMap_cons, Tag.fin?, List.mem_cons] at this
      simp only [upd_apply]
      grind
    · intro j
      have := h.asking j
      rw [hmem _ (by simp), e1]
      simp only [List.mem_cons, reduceCtorEq, false_or] at this
      simp only [upd_apply]
      grind
    · intro j hj
      rw [hmem _ (by simp)] at hj
      have := h.started j (List.mem_cons_of_mem _ hj)
      rw [e1]; simp only [upd_apply]; grind
    · refine ⟨l.erase i, hl1.erase i, ?_, ?_⟩
      · intro j
        rw [hl1.mem_erase_iff, hl2, e1]
        simp only [upd_apply]
        by_cases hj : j = i <;> simp [hj, CS.active]
      · rw [List.length_erase_of_mem hi, hl3, e2]
    · rw [e3]; exact h.todoNodup
    · intro j hj
      rw [e3] at hj
      have := h.todo j hj
      rw [e1]; simp only [upd_apply]; grind
    · intro j hj
      rw [e1] at hj
      simp only [upd_apply] at hj
      by_cases hji : j = i
      · subst hji; exact h.known j (by simp [hr])
      · rw [if_neg hji] at hj; exact h.known j hj
    · intro hk hp j hj hc
      rw [e1] at hc; simp only [upd_apply] at hc
      rw [e3]
      refine h.all hk ?_ j hj (by grind)
      rcases hph with h | h <;> simp [h]
    · intro hk hp
      rw [e3]; refine h.todoEnd hk ?_
      rcases e4 with ⟨e4, -, -⟩ | ⟨e4, e5, -⟩
      · rwa [e4] at hp
      · simp [e4]
    · intro hp
      rcases e4 with ⟨e4, -, -⟩ | ⟨e4, e5, -⟩
      · rw [e4] at hp; rcases hph with h | h <;> simp [h] at hp
      · simp [e5] at hp
    · intro hp
      rcases e4 with ⟨e4, e5, -⟩ | ⟨e4, e5, -⟩
      · rw [e4] at hp
        rcases e5 with e5 | e5
        · simp [e5] at hp
        · rwa [e2]
      · simp [e5] at hp
    · intro hp
      rcases e4 with ⟨e4, -, -⟩ | ⟨e4, e5, e6, -⟩
      · unfold St.over at hp
        rw [e4] at hp
        rcases hph with h | h <;> simp [h] at hp
      · rwa [e2]
    · have := h.resumes
      rcases e4 with ⟨e4, -, e5⟩ | ⟨e4, e5, -, e6⟩
      · rw [e4, e5]; exact this
      · rw [e5, e6, this, e4]; simp
    · intro hse
      rw [hmem _ (by simp)] at hse
      rw [e3]
      exact h.startEnd (List.mem_cons_of_mem _ hse)
  unfold St.finish
  dsimp only
  split
  · rename_i hcond
    refine key _ rfl rfl rfl (Or.inr ⟨hcond.2, rfl, hcond.1, rfl⟩)
  · rename_i hcond
    refine key _ rfl rfl rfl (Or.inl ⟨rfl, ?_, rfl⟩)
    rcases hph with h | h
    · exact Or.inl h
    · right; intro h'; exact hcond ⟨h', h⟩

/-- The end of the start. -/
theorem Inv.endStart2 {c : Cfg} {s : St} {T : List Tag} {t : Tag} (h : Inv c s (t :: T))
    (ht : t = .loop ∨ t = .co .startEnd) (hk : c.kind ≠ .race → s.todo = []) : Inv c s.endStart2 T := by
  have h1 : t.isStart = true := by rcases ht with rfl | rfl <;> rfl
  have h2 : t.fin? = none := by rcases ht with rfl | rfl <;> rfl
  have hp : s.phase = .starting := by
    exact h.phase_of (by first | assumption | rfl)
  have hm : ∀ j, Tag.ask j ≠ t ∧ Tag.start j ≠ t := by
    intro j; rcases ht with rfl | rfl <;> simp
  cases h
  simp only [List.countP_cons, List.filterMap_cons, h1, h2, List.mem_cons, St.over] at *
  unfold St.endStart2
  split
  all_goals
    constructor <;> (try simp only [St.over]) <;>
    first
      | assumption
      | grind

theorem scanEmit_tags {c : Cfg} {s : St} {k ct since : Nat} {co : Cont} :
    let r := St.scanEmit c s k co ct since
    r.1.tags = (if r.2 then [Tag.co co] else []) ++ s.tags ∧
    r.1.child = s.child ∧ r.1.uses = s.uses ∧ r.1.phase = s.phase ∧ r.1.todo = s.todo ∧
    r.1.resumes = s.resumes := by
  unfold St.scanEmit
  split <;> simp [St.tags, Frame.tag]

theorem scanIntr_tags {c : Cfg} {s : St} {k since : Nat} {co : Cont} :
    let r := St.scanIntr c s k co since
    r.1.tags = (if r.2 then [Tag.co co] else []) ++ s.tags ∧
    r.1.child = s.child ∧ r.1.uses = s.uses ∧ r.1.phase = s.phase ∧ r.1.todo = s.todo ∧
    r.1.resumes = s.resumes := by
  unfold St.scanIntr
  split <;> simp [St.tags, Frame.tag]

theorem Inv.endStart {c : Cfg} {s : St} (h : Inv c s (.loop :: s.tags)) (hk : c.kind ≠ .race → s.todo = []) :
    Inv c (s.endStart c) (s.endStart c).tags := by
  unfold St.endStart
  split
  · rename_i hj
    have hk' := hk (by rw [hj.1]; simp)
    dsimp only
    obtain ⟨e1, e2, e3, e4, e5, e6⟩ := scanEmit_tags (c := c) (s := s) (k := 0) (co := .startEnd) (ct := c.ct)
      (since := s.sent.length)
    have h' : Inv c s (.co .startEnd :: s.tags) := by
      cases h
      simp only [List.countP_cons, List.filterMap_cons, Tag.isStart, Tag.fin?, List.mem_cons, reduceCtorEq,
        false_or] at *
      constructor <;> (try simp only [List.countP_cons, List.filterMap_cons, Tag.isStart, Tag.fin?, List.mem_cons,
        reduceCtorEq, false_or]) <;> first | assumption | grind
    have h'' := h'.congr e2 e3 e4 e5 e6
    split
    · rename_i hb
      rw [hb] at e1
      rw [e1]; exact h''
    · rename_i hb
      simp only [hb, Bool.false_eq_true, if_false, List.nil_append] at e1
      have := h''.endStart2 (Or.inr rfl) (fun _ => by rw [e5]; exact hk')
      have et : ∀ t : St, t.endStart2.tags = t.tags := by intro t; unfold St.endStart2; split <;> rfl
      rw [et, e1]; exact this
  · have et : ∀ t : St, t.endStart2.tags = t.tags := by intro t; unfold St.endStart2; split <;> rfl
    rw [et]
    exact h.endStart2 (Or.inl rfl) hk

theorem Inv.startNext {c : Cfg} {s : St} (h : Inv c s (.loop :: s.tags)) :
    Inv c (s.startNext c) (s.startNext c).tags := by
  unfold St.startNext
  split
  · rename_i ht
    exact h.endStart (fun _ => ht)
  · rename_i i rest ht
    have hi := h.todo i (by rw [ht]; simp)
    have hp : s.phase = .starting := by
      exact h.phase_of (by first | assumption | rfl)
    obtain ⟨l, hl1, hl2, hl3⟩ := h.uses
    have hil : i ∉ l := by intro hil; have := (hl2 i).1 hil; simp [hi.1, CS.active] at this
    have hte : ({ s with
      child := upd s.child i .asking, uses := s.uses + 1, working := upd s.working i true
      todo := rest, stack := .asking i :: s.stack } : St).tags = .ask i :: s.tags := rfl
    rw [hte]
    constructor
    · have := h.starts
      simpa [List.countP_cons, Tag.isStart] using this
    · simpa using h.fins
    · intro j
      have := h.running j
      simp only [List.filterMap_cons, Tag.fin?] at this ⊢
      simp only [upd_apply]; grind
    · intro j
      have := h.asking j
      simp only [List.mem_cons, reduceCtorEq, false_or, Tag.ask.injEq] at this ⊢
      simp only [upd_apply]; grind
    · intro j hj
      simp only [List.mem_cons, reduceCtorEq, false_or] at hj
      have := h.started j (List.mem_cons_of_mem _ hj)
      simp only [upd_apply]; grind
    · refine ⟨i :: l, List.nodup_cons.2 ⟨hil, hl1⟩, ?_, by simp [hl3]⟩
      intro j
      simp only [List.mem_cons, hl2, upd_apply]
      by_cases hj : j = i <;> simp [hj, CS.active]
    · have := h.todoNodup; rw [ht] at this; exact (List.nodup_cons.1 this).2
    · intro j hj
      have := h.todo j (by rw [ht]; exact List.mem_cons_of_mem _ hj)
      have hn := h.todoNodup
      rw [ht] at hn
      have : j ≠ i := fun e => (List.nodup_cons.1 hn).1 (e ▸ hj)
      simp only [upd_apply, if_neg this]; assumption
    · intro j hj
      simp only [upd_apply] at hj
      by_cases hji : j = i
      · subst hji; exact hi.2
      · rw [if_neg hji] at hj; exact h.known j hj
    · intro hk hp' j hj hc
      simp only [upd_apply] at hc
      have hji : j ≠ i := by intro e; simp [e] at hc
      rw [if_neg hji] at hc
      have := h.all hk hp' j hj hc
      rw [ht] at this
      simpa [hji] using this
    · intro _ hp'; exact absurd hp hp'
    · intro hp'; simp [hp] at hp'
    · intro hp'; simp [hp] at hp'
    · intro hp'; unfold St.over at hp'; simp [hp] at hp'
    · exact h.resumes
    · intro hse
      simp only [List.mem_cons, reduceCtorEq, false_or] at hse
      have := h.startEnd (List.mem_cons_of_mem _ hse)
      simp [ht] at this

theorem Inv.afterStart {c : Cfg} {s : St} (h : Inv c s (.loop :: s.tags)) (i : Nat) (d : Bool) :
    Inv c (s.afterStart c i d) (s.afterStart c i d).tags := by
  unfold St.afterStart
  split
  · rename_i hk
    split
    · split
      · rename_i hu
        have hp : s.phase = .starting := by
          exact h.phase_of (by first | assumption | rfl)
        have := h.endStart2 (Or.inl rfl) (fun h => absurd hk h)
        unfold St.endStart2 at this
        rw [if_pos hu] at this
        exact this
      · exact h.startNext
    · dsimp only
      generalize (if s.child i = .finished then (if s.off i then d else true) else false) = b
      cases b
      · exact h.startNext
      · exact h.endStart (fun h => absurd hk h)
  · exact h.startNext

theorem finish_tags (s : St) (i : Nat) : (s.finish i).tags = s.tags := by
  unfold St.finish; dsimp only; split <;> rfl

theorem Inv.done {c : Cfg} {s : St} {co : Cont} (h : Inv c s (.co co :: s.tags)) (d : Bool)  :
    Inv c (s.done c co d) (s.done c co d).tags := by
  unfold St.done
  split
  · rename_i i b
    have h' := h.finish
    dsimp only
    split
    · rename_i hb
      rw [if_pos hb] at h'
      rw [← finish_tags s i] at h'
      exact h'.afterStart i d
    · rename_i hb
      rw [if_neg hb] at h'
      rw [finish_tags]; exact h'
  · exact h.pop (Or.inr ⟨_, rfl⟩)
  · have et : ∀ t : St, t.endStart2.tags = t.tags := by intro t; unfold St.endStart2; split <;> rfl
    rw [et]
    exact h.endStart2 (Or.inr rfl) (fun _ => h.startEnd (by simp))
  · exact h.pop (Or.inl rfl)

theorem Inv.contEmit {c : Cfg} {s : St} {co : Cont} (h : Inv c s (.co co :: s.tags)) (k ct since : Nat) (d : Bool) :
    Inv c (s.contEmit c k co ct since d) (s.contEmit c k co ct since d).tags := by
  obtain ⟨e1, e2, e3, e4, e5, e6⟩ := scanEmit_tags (c := c) (s := s) (k := k) (co := co) (ct := ct) (since := since)
  have h' := h.congr e2 e3 e4 e5 e6
  unfold St.contEmit
  dsimp only
  split
  · rename_i hb
    rw [hb] at e1; rw [e1]; exact h'
  · rename_i hb
    simp only [hb, Bool.false_eq_true, if_false, List.nil_append] at e1
    rw [← e1] at h'
    exact h'.done d

theorem Inv.contIntr {c : Cfg} {s : St} {co : Cont} (h : Inv c s (.co co :: s.tags)) (k since : Nat) (d : Bool) :
    Inv c (s.contIntr c k co since d) (s.contIntr c k co since d).tags := by
  obtain ⟨e1, e2, e3, e4, e5, e6⟩ := scanIntr_tags (c := c) (s := s) (k := k) (co := co) (since := since)
  have h' := h.congr e2 e3 e4 e5 e6
  unfold St.contIntr
  dsimp only
  split
  · rename_i hb
    rw [hb] at e1; rw [e1]; exact h'
  · rename_i hb
    simp only [hb, Bool.false_eq_true, if_false, List.nil_append] at e1
    rw [← e1] at h'
    split
    · rename_i hext
      exact h'.pop (Or.inl hext)
    · exact h'.contEmit _ _ _ _

/-- The awaitable of a child is done: its coroutine runs. -/
theorem Inv.toRunning {c : Cfg} {s : St} {T : List Tag} {i : Nat} {b : Bool}
    (h : (b = false ∧ s.child i = .waiting ∧ Inv c s T) ∨ (b = true ∧ Inv c s (.ask i :: T)) ∨
      (b = true ∧ s.child i = .waiting ∧ Inv c s (.start i :: T))) :
    Inv c { s with child := upd s.child i .running } (.co (.finish i b) :: T) := by
  have hact : s.child i = .waiting ∨ s.child i = .asking := by
    rcases h with ⟨_, h, _⟩ | ⟨_, h⟩ | ⟨_, h, _⟩
    · exact Or.inl h
    · exact Or.inr ((h.asking i).2 (by simp))
    · exact Or.inl h
  obtain ⟨T', h', hst, hf, hm⟩ : ∃ T', Inv c s T' ∧ T'.countP Tag.isStart = (Tag.co (.finish i b) :: T).countP Tag.isStart ∧
      T'.filterMap Tag.fin? = T.filterMap Tag.fin? ∧
      ∀ t, t ∈ T' ↔ (t ∈ T ∨ (b = true ∧ ((t = .ask i ∧ s.child i = .asking) ∨ (t = .start i ∧ s.child i = .waiting)) ∧ t ∈ T')) := by
    rcases h with ⟨hb, h, hi⟩ | ⟨hb, hi⟩ | ⟨hb, h, hi⟩
    · exact ⟨T, hi, by simp [hb, Tag.isStart, List.countP_cons], rfl, by intro t; simp [hb]⟩
    · have := (hi.asking i).2 (by simp)
      exact ⟨_, hi, by simp [hb, Tag.isStart, List.countP_cons], by simp, by intro t; simp [hb, this]; grind⟩
    · exact ⟨_, hi, by simp [hb, Tag.isStart, List.countP_cons], by simp, by intro t; simp [hb, h]; grind⟩
  obtain ⟨l, hl1, hl2, hl3⟩ := h'.uses
  have hnr : i ∉ T.filterMap Tag.fin? := by
    rw [← hf]; intro hc; have := (h'.running i).2 hc; rcases hact with h | h <;> simp [h] at this
  have hask : ∀ j, Tag.ask j ∈ T → Tag.ask j ∈ T' := fun j hj => (hm _).2 (Or.inl hj)
  have hcnt : ∀ j, Tag.ask j ∈ T → j ≠ i := by
    intro j hj e
    subst e
    -- two start tags
    have h1 := h'.starts
    rw [hst, List.countP_cons] at h1
    have h2 := List.countP_pos_iff.2 ⟨_, hj, show Tag.isStart (Tag.ask j) = true from rfl⟩
    have hw := (h'.asking j).2 (hask j hj)
    rcases h with ⟨_, h, _⟩ | ⟨hb, hi⟩ | ⟨_, h, _⟩
    · simp [hw] at h
    · subst hb
      simp only [Tag.isStart, if_true] at h1
      split at h1 <;> omega
    · simp [hw] at h
  constructor
  · rw [← hst]; exact h'.starts
  · simp only [List.filterMap_cons, Tag.fin?, List.nodup_cons]
    exact ⟨hnr, hf ▸ h'.fins⟩
  · intro j
    have := h'.running j
    rw [hf] at this
    simp only [List.filterMap_cons, Tag.fin?, List.mem_cons, upd_apply]
    by_cases hj : j = i
    · simp [hj]
    · simp [hj, this]
  · intro j
    have := h'.asking j
    simp only [List.mem_cons, reduceCtorEq, false_or, upd_apply]
    by_cases hj : j = i
    · subst hj
      simp only [if_true, reduceCtorEq, false_iff]
      intro hc; exact hcnt j hc rfl
    · rw [if_neg hj, this, hm]
      simp [hj]
  · intro j hj
    simp only [List.mem_cons, reduceCtorEq, false_or] at hj
    have := h'.started j ((hm _).2 (Or.inl hj))
    simp only [upd_apply]; grind
  · refine ⟨l, hl1, ?_, hl3⟩
    intro j
    rw [hl2]; simp only [upd_apply]
    by_cases hj : j = i
    · rcases hact with h | h <;> simp [hj, h, CS.active]
    · simp [hj]
  · exact h'.todoNodup
  · intro j hj
    have := h'.todo j hj
    simp only [upd_apply]
    by_cases hji : j = i
    · subst hji; rcases hact with h | h <;> simp [h] at this
    · simpa [hji] using this
  · intro j hj
    simp only [upd_apply] at hj
    by_cases hji : j = i
    · subst hji; exact h'.known j (by rcases hact with h | h <;> simp [h])
    · rw [if_neg hji] at hj; exact h'.known j hj
  · intro hk hp j hj hc
    simp only [upd_apply] at hc
    exact h'.all hk hp j hj (by grind)
  · exact h'.todoEnd
  · intro hp
    have := h'.before hp
    have hu := h'.uses
    have hi : i ∈ l := (hl2 i).2 (by rcases hact with h | h <;> simp [h, CS.active])
    have := List.length_pos_of_mem hi
    omega
  · exact h'.susp
  · exact h'.over
  · exact h'.resumes
  · intro hse
    simp only [List.mem_cons, Tag.co.injEq, reduceCtorEq, false_or] at hse
    exact h'.startEnd ((hm _).2 (Or.inl hse))

end Cobalt.Comb
