import Verif.Desc.Model
import Mathlib.Data.List.Nodup
import Mathlib.Data.List.Perm.Basic
/-!
# Properties of obtaining and giving up descriptors
-/
namespace Cobalt.Desc

/-! ## Specification -/

/-- Who has a descriptor: the objects and the user. -/
def St.held (s : St) : List Nat := s.objs.filterMap id ++ s.user

/-- Every open descriptor is held exactly once, and what is held is open. -/
def Accounted (s : St) : Prop := s.fds.Nodup ∧ s.fds.Perm s.held

/-- A call that fails says so in its result and has no effect on the objects. -/
def FailsCleanly (s : St) (e : Ev) : Prop :=
  (s.step e).2 ≠ .throw ∧ ((s.step e).2 = .error → (s.step e).1.objs = s.objs)

/-- **C67**, in full. -/
def C67 : Prop := ∀ es, Accounted (St.run {} es) ∧ ∀ e, FailsCleanly (St.run {} es) e

/-- Opening a file which is open leaks the new descriptor. -/
theorem C67_violated : ¬ C67 := by
  intro h
  have h1 := ((h [.make, .open_ 0 true true, .open_ 0 true true]).1.2).length_eq
  exact absurd h1 (by decide)

/-- `pipe()` throws instead of giving an error. -/
theorem C67_pipe_violated (s : St) (reg : Bool) : (s.step (.pipe false reg)).2 = .throw := rfl

/-! ## What holds -/

/-- The call opens a file but cannot put the descriptor into the object. -/
def Leaks (s : St) : Ev → Prop
  | .open_ i sys reg =>
    sys = true ∧ i < s.objs.length ∧ ¬ (s.objs[i]? = some none ∧ reg = true)
  | _ => False

instance (s : St) (e : Ev) : Decidable (Leaks s e) := by
  cases e <;> unfold Leaks <;> infer_instance

/-- The number of such calls in a history. -/
def leaks (s : St) : List Ev → Nat
  | [] => 0
  | e :: es => (if Leaks s e then 1 else 0) + leaks (s.step e).1 es

/-- All open descriptors are held or leaked. -/
structure Inv (s : St) (l : List Nat) : Prop where
  nodup : s.fds.Nodup
  perm : s.fds.Perm (s.held ++ l)
  lt : ∀ fd ∈ s.fds, fd < s.next

theorem filterMap_set_some {l : List (Option Nat)} {i fd : Nat} (h : l[i]? = some none) :
    ((l.set i (some fd)).filterMap id).Perm (fd :: l.filterMap id) := by
  induction l generalizing i with
  | nil => simp at h
  | cons x l ih =>
    cases i with
    | zero => simp at h; subst h; simp
    | succ i =>
      simp only [List.getElem?_cons_succ] at h
      simp only [List.set_cons_succ]
      cases x with
      | none => simpa using ih h
      | some y =>
        simp only [List.filterMap_cons, id]
        exact ((ih h).cons y).trans (List.Perm.swap fd y _)

theorem filterMap_set_none {l : List (Option Nat)} {i fd : Nat} (h : l[i]? = some (some fd)) :
    (fd :: (l.set i none).filterMap id).Perm (l.filterMap id) := by
  induction l generalizing i with
  | nil => simp at h
  | cons x l ih =>
    cases i with
    | zero => simp at h; subst h; simp
    | succ i =>
      simp only [List.getElem?_cons_succ] at h
      simp only [List.set_cons_succ]
      cases x with
      | none => simpa using ih h
      | some y =>
        simp only [List.filterMap_cons, id]
        exact (List.Perm.swap y fd _).trans ((ih h).cons y)

theorem Inv.perm' {s s' : St} {l : List Nat} (h : Inv s l) (h1 : s'.fds = s.fds)
    (h2 : s'.next = s.next) (h3 : s'.held.Perm s.held) : Inv s' l :=
  ⟨h1 ▸ h.nodup, h1 ▸ h.perm.trans (h3.symm.append_right l), by rw [h1, h2]; exact h.lt⟩

theorem Inv.fresh {s : St} {l : List Nat} (h : Inv s l) : Inv s.fresh (s.next :: l) where
  nodup := by
    simp only [St.fresh]
    rw [List.nodup_append]
    refine ⟨h.nodup, by simp, ?_⟩
    intro a ha b hb
    simp only [List.mem_singleton] at hb
    have := h.lt a ha
    omega
  perm := by
    simp only [St.fresh]
    have h1 : (s.fds ++ [s.next]).Perm (s.next :: s.fds) := List.perm_append_comm
    have h2 := (h.perm.cons s.next).trans (List.perm_middle (l₁ := s.held)).symm
    exact h1.trans h2
  lt := by
    intro fd hfd
    simp only [St.fresh, List.mem_append, List.mem_singleton] at hfd ⊢
    rcases hfd with hfd | hfd
    · have := h.lt fd hfd; omega
    · omega

/-- A descriptor nobody holds is taken by an object. -/
theorem Inv.take {s : St} {l : List Nat} {i fd : Nat} (h : Inv s (fd :: l))
    (hi : s.objs[i]? = some none) : Inv { s with objs := s.objs.set i (some fd) } l where
  nodup := h.nodup
  perm := by
    refine h.perm.trans ?_
    simp only [St.held]
    have h1 := ((filterMap_set_some (fd := fd) hi).append_right s.user).append_right l
    refine List.Perm.trans ?_ h1.symm
    exact List.perm_middle
  lt := h.lt

theorem Inv.closeFd {s : St} {l : List Nat} {fd : Nat} (h : Inv s (fd :: l)) :
    Inv (s.closeFd fd) l where
  nodup := h.nodup.filter _
  perm := by
    have h1 : s.fds.Perm (fd :: (s.held ++ l)) := h.perm.trans List.perm_middle
    have hn : fd ∉ s.held ++ l := by
      have := h1.nodup_iff.mp h.nodup
      exact (List.nodup_cons.mp this).1
    have h2 := h1.filter (fun x => decide (x ≠ fd))
    simp only [List.filter_cons, ne_eq, not_true_eq_false, decide_false] at h2
    have h3 : (s.held ++ l).filter (fun x => decide (¬ x = fd)) = s.held ++ l := by
      rw [List.filter_eq_self]
      intro x hx
      simp only [decide_not, Bool.not_eq_eq_eq_not, Bool.not_true, decide_eq_false_iff_not]
      rintro rfl
      exact hn hx
    rw [h3] at h2
    exact h2
  lt := by
    intro x hx
    exact h.lt x (List.mem_of_mem_filter hx)

/-- An object gives up its descriptor. -/
theorem Inv.give {s : St} {l : List Nat} {i fd : Nat} (h : Inv s l)
    (hi : s.objs[i]? = some (some fd)) : Inv { s with objs := s.objs.set i none } (fd :: l) where
  nodup := h.nodup
  perm := by
    refine h.perm.trans ?_
    simp only [St.held]
    have h1 := ((filterMap_set_none (fd := fd) hi).append_right s.user).append_right l
    refine h1.symm.trans ?_
    exact List.perm_middle.symm
  lt := h.lt

theorem Inv.close {s : St} {l : List Nat} (h : Inv s l) (i : Nat) : Inv (s.close i) l := by
  unfold St.close
  split
  · exact (h.give ‹_›).closeFd
  · exact h

theorem Inv.swap {s : St} {l : List Nat} {a b : Nat} (h : Inv s (a :: b :: l)) :
    Inv s (b :: a :: l) :=
  ⟨h.nodup, h.perm.trans ((List.Perm.swap b a l).append_left s.held), h.lt⟩

theorem Inv.step {s : St} {l : List Nat} (h : Inv s l) (e : Ev) :
    ∃ l', Inv (s.step e).1 l' ∧ l'.length = l.length + if Leaks s e then 1 else 0 := by
  cases e with
  | make => exact ⟨l, h.perm' rfl rfl (by simp [St.step, St.held]), by simp [Leaks]⟩
  | open_ i sys reg =>
    simp only [St.step]
    cases ho : s.objs[i]? with
    | none =>
      have : ¬ i < s.objs.length := by
        simpa using ho
      exact ⟨l, h, by simp [Leaks, this]⟩
    | some o =>
      have hl : i < s.objs.length := (List.getElem?_eq_some_iff.mp ho).1
      cases sys with
      | false => exact ⟨l, h, by simp [Leaks]⟩
      | true =>
        simp only [Bool.not_true, Bool.false_eq_true, if_false]
        have ho' : s.fresh.objs[i]? = some o := ho
        simp only [St.assign, ho']
        cases o with
        | some fd =>
          exact ⟨_, h.fresh, by simp only [Leaks, hl, ho]; simp⟩
        | none =>
          cases reg with
          | true => exact ⟨l, h.fresh.take ho', by simp [Leaks, ho]⟩
          | false => exact ⟨_, h.fresh, by simp [Leaks, hl]⟩
  | close i => exact ⟨l, h.close i, by simp [Leaks]⟩
  | release i =>
    simp only [St.step]
    split
    · rename_i fd hi
      refine ⟨l, ⟨h.nodup, ?_, h.lt⟩, by simp [Leaks]⟩
      refine (h.give hi).perm.trans ?_
      simp only [St.held]
      simp only [List.append_assoc, List.singleton_append]
      exact List.Perm.refl _
    · exact ⟨l, h, by simp [Leaks]⟩
  | connectPair i j sys reg1 reg2 =>
    refine ⟨l, ?_, by simp [Leaks]⟩
    simp only [St.step]
    split
    · rename_i o1 o2 h1 h2
      cases sys with
      | false => exact h
      | true =>
        simp only [Bool.not_true, Bool.false_eq_true, if_false]
        have hf := h.fresh.fresh
        have hf' : Inv s.fresh.fresh (s.next :: (s.next + 1) :: l) := hf.swap
        have hi : s.fresh.fresh.objs[i]? = some o1 := h1
        simp only [St.assign, hi]
        have fail1 : Inv ((s.fresh.fresh.closeFd s.next).closeFd (s.next + 1)) l :=
          hf'.closeFd.closeFd
        cases o1 with
        | some fd => exact fail1
        | none =>
          cases reg1 with
          | false => exact fail1
          | true =>
            simp only [if_true]
            have ht := hf'.take hi
            split
            · rename_i s'' heq
              split at heq
              · split at heq
                · simp at heq
                · simp only [Prod.mk.injEq, and_true] at heq
                  rw [← heq]
                  exact (ht.close i).closeFd
              · simp only [Prod.mk.injEq, and_true] at heq
                rw [← heq]
                exact (ht.close i).closeFd
            · rename_i s'' heq
              split at heq
              · rename_i hj
                split at heq
                · simp only [Prod.mk.injEq, and_true] at heq
                  rw [← heq]
                  exact ht.take hj
                · simp at heq
              · simp at heq
    · exact h
  | pipe sys reg =>
    refine ⟨l, ?_, by simp [Leaks]⟩
    simp only [St.step]
    cases sys with
    | false => exact h
    | true =>
      have hf : Inv s.fresh.fresh (s.next :: (s.next + 1) :: l) := h.fresh.fresh.swap
      cases reg with
      | false => exact hf.closeFd.closeFd
      | true =>
        simp only [Bool.not_true, Bool.false_eq_true, if_false]
        refine ⟨hf.nodup, hf.perm.trans ?_, hf.lt⟩
        simp only [St.held, St.fresh, List.filterMap_append, List.filterMap_cons, id,
          List.filterMap_nil]
        rw [List.append_assoc, List.append_assoc, List.append_assoc]
        refine List.Perm.append_left _ ?_
        have : (s.user ++ s.next :: (s.next + 1) :: l).Perm
            (s.next :: (s.next + 1) :: (s.user ++ l)) :=
          List.perm_middle.trans (List.perm_middle.cons _)
        exact this

theorem Inv.run {s : St} {l : List Nat} (h : Inv s l) (es : List Ev) :
    ∃ l', Inv (s.run es) l' ∧ l'.length = l.length + leaks s es := by
  induction es generalizing s l with
  | nil => exact ⟨l, h, rfl⟩
  | cons e es ih =>
    obtain ⟨l1, h1, h2⟩ := h.step e
    obtain ⟨l2, h3, h4⟩ := ih h1
    refine ⟨l2, h3, ?_⟩
    simp only [leaks]
    omega

theorem Inv.init : Inv {} [] := ⟨by simp, by simp [St.held], by simp⟩

/-- All descriptors are accounted for exactly if no file was opened without taking its
descriptor: when it was open already, or the reactor refused. Otherwise as many leak. -/
theorem C67_exact (es : List Ev) :
    (Accounted (St.run {} es) ↔ leaks {} es = 0) ∧
    (St.run {} es).fds.length = (St.run {} es).held.length + leaks {} es := by
  obtain ⟨l, h, hl⟩ := Inv.init.run es
  simp only [List.length_nil, Nat.zero_add] at hl
  have hlen := h.perm.length_eq
  rw [List.length_append, hl] at hlen
  refine ⟨⟨fun ha => ?_, fun h0 => ⟨h.nodup, ?_⟩⟩, hlen⟩
  · have := ha.2.length_eq
    omega
  · have : l = [] := List.length_eq_zero_iff.mp (by omega)
    subst this
    simpa using h.perm

/-- `connect_pair` and all calls but `pipe` fail cleanly. -/
theorem C67_fails_cleanly (s : St) (e : Ev) (he : ∀ sys reg, e ≠ .pipe sys reg) :
    FailsCleanly s e := by
  cases e with
  | make => simp [FailsCleanly, St.step]
  | open_ i sys reg =>
    simp only [FailsCleanly, St.step, St.assign]
    split
    · simp
    · rename_i o ho
      have ho' : s.fresh.objs[i]? = some o := ho
      simp only [ho']
      cases sys <;> cases o <;> cases reg <;> simp [St.fresh]
  | close i => simp [FailsCleanly, St.step]
  | release i =>
    simp only [FailsCleanly, St.step]
    split <;> simp
  | connectPair i j sys reg1 reg2 =>
    simp only [FailsCleanly, St.step]
    split
    · rename_i o1 o2 h1 h2
      cases sys with
      | false => simp
      | true =>
        simp only [Bool.not_true, Bool.false_eq_true, if_false]
        have hi : s.fresh.fresh.objs[i]? = some o1 := h1
        simp only [St.assign, hi]
        have hl : i < s.objs.length := (List.getElem?_eq_some_iff.mp h1).1
        cases o1 with
        | some fd => simp [St.closeFd, St.fresh]
        | none =>
          cases reg1 with
          | false => simp [St.closeFd, St.fresh]
          | true =>
            simp only [if_true]
            have back : ∀ fd, (s.objs.set i (some fd)).set i none = s.objs := by
              intro fd
              rw [List.set_set]
              apply List.ext_getElem?
              intro k
              rw [List.getElem?_set]
              by_cases hk : i = k
              · subst hk; simp only [h1, if_true, hl]
              · simp [hk]
            split
            · rename_i s'' heq
              have hs : s'' = { s.fresh.fresh with objs := s.fresh.fresh.objs.set i (some s.next) } := by
                split at heq
                · split at heq
                  · simp at heq
                  · simp only [Prod.mk.injEq, and_true] at heq; exact heq.symm
                · simp only [Prod.mk.injEq, and_true] at heq; exact heq.symm
              subst hs
              simp only [St.fresh, St.close, St.closeFd, List.getElem?_set_self hl]
              simp [back]
            · simp
    · simp
  | pipe sys reg => exact absurd rfl (he sys reg)

/-- What holds: histories without such calls of `open`. -/
theorem C67_partial (es : List Ev) (h : leaks {} es = 0) : Accounted (St.run {} es) :=
  (C67_exact es).1.mpr h

example : leaks {} [.make, .make, .connectPair 0 1 true true false, .open_ 0 true true,
    .connectPair 0 1 true true true, .release 0, .open_ 0 false true, .pipe true true] = 0 ∧
    (St.run {} [.make, .make, .connectPair 0 1 true true false, .open_ 0 true true,
    .connectPair 0 1 true true true, .release 0, .open_ 0 false true, .pipe true true]).fds =
      [2, 5, 6] := by decide

end Cobalt.Desc
