import Verif.Comb.Shape
/-! The loops that interrupt and cancel children: what they have reached. -/
namespace Cobalt.Comb

theorem next_some {n k j : Nat} {p : Nat → Bool} (h : St.next n k p = some j) :
    k ≤ j ∧ j < n ∧ p j = true ∧ ∀ x, k ≤ x → x < j → p x = false := by
  unfold St.next at h
  rw [List.find?_range'_eq_some] at h
  obtain ⟨h1, h2, h3⟩ := h
  simp only [List.mem_range'_1] at h2
  refine ⟨h2.1, by omega, h1, fun x hx hy => by simpa using h3 x hx hy⟩

theorem next_none {n k : Nat} {p : Nat → Bool} (h : St.next n k p = none) :
    ∀ x, k ≤ x → x < n → p x = false := by
  unfold St.next at h
  rw [List.find?_range'_eq_none] at h
  intro x hx hy
  simpa using h x hx (by omega)

/-- A loop over the children that has passed those below `p`. -/
inductive Act where
  | other
  | intr (p : Nat) (co : Cont) (since : Nat)
  | emit (p : Nat) (co : Cont) (ct since : Nat)

def Frame.act : Frame → Act
  | .asking _ | .starting _ => .other
  | .intr k co since => .intr (k + 1) co since
  | .emit k co ct since => .emit (k + 1) co ct since

def St.acts (s : St) : List Act := s.stack.map Frame.act

theorem recent_append {α : Type} {n : Nat} {l m : List α} {x : α} (hn : n ≤ l.length) (h : x ∈ recent n l) :
    x ∈ recent n (m ++ l) := by
  unfold recent at *
  rw [List.length_append, Nat.add_sub_assoc hn, List.take_length_add_append]
  exact List.mem_append_right _ h

theorem recent_cons {α : Type} {n : Nat} {l : List α} {x : α} (hn : n ≤ l.length) : x ∈ recent n (x :: l) := by
  unfold recent
  rw [List.length_cons, show l.length + 1 - n = (l.length - n) + 1 by omega]
  simp

theorem recent_sub {α : Type} {n : Nat} {l : List α} {x : α} (h : x ∈ recent n l) : x ∈ l := List.mem_of_mem_take h

def ActOk (c : Cfg) (s : St) : Act → Prop
  | .other => True
  | .intr p _ since => since ≤ s.intd.length ∧
      ∀ j, j < p → s.child j = .waiting → s.hit c j = true → j ∈ recent since s.intd
  | .emit p co ct since => since ≤ s.sent.length ∧
      (co = .ext → ∀ j, j < p → s.child j = .waiting → s.sig j = true → (j, ct) ∈ recent since s.sent) ∧
      (co ≠ .ext → ct = c.ct ∧ ∀ j, j < p → s.sig j = false)

/-- Fewer children to reach, more reached. -/
structure Mono (c : Cfg) (s t : St) : Prop where
  waiting : ∀ j, t.child j = .waiting → s.child j = .waiting
  sig : ∀ j, t.sig j = true → s.sig j = true
  hit : ∀ j, t.child j = .waiting → t.hit c j = true → s.hit c j = true
  sent : ∃ l, t.sent = l ++ s.sent
  intd : ∃ l, t.intd = l ++ s.intd

theorem Mono.act {c : Cfg} {s t : St} (h : Mono c s t) {a : Act} (ha : ActOk c s a) : ActOk c t a := by
  obtain ⟨l, hl⟩ := h.sent
  obtain ⟨m, hm⟩ := h.intd
  cases a with
  | other => trivial
  | intr p co since =>
    refine ⟨by rw [hm, List.length_append]; exact Nat.le_trans ha.1 (Nat.le_add_left ..), fun j hj hw hh => ?_⟩
    rw [hm]
    exact recent_append ha.1 (ha.2 j hj (h.waiting j hw) (h.hit j hw hh))
  | emit p co ct since =>
    refine ⟨by rw [hl, List.length_append]; exact Nat.le_trans ha.1 (Nat.le_add_left ..), fun hc j hj hw hs => ?_,
      fun hc => ⟨(ha.2.2 hc).1, fun j hj => ?_⟩⟩
    · rw [hl]
      exact recent_append ha.1 (ha.2.1 hc j hj (h.waiting j hw) (h.sig j hs))
    · cases hx : t.sig j
      · rfl
      · have := (ha.2.2 hc).2 j hj
        rw [h.sig j hx] at this; simp at this

/-- Not yet in a position to be cancelled. -/
def CS.fresh : CS → Bool
  | .idle | .asking => true
  | _ => false

/-- The invariant of the loops. `g`: no child was started after there was a winner
and the winner did not throw while being started; `nc`: there was no cancellation
from outside. `fs`: the loops in progress. -/
structure Inv2 (c : Cfg) (g nc : Bool) (s : St) (fs : List Act) : Prop where
  ok : ∀ a ∈ fs, ActOk c s a
  emitK : ∀ p co ct since, Act.emit p co ct since ∈ fs → co ≠ .ext → c.kind ≠ .gather
  intrK : ∀ p co since, Act.intr p co since ∈ fs → co ≠ .ext → c.kind = .race
  reach : ∀ j, s.child j = .waiting →
    s.sig j = true ∨ (c.kind ≠ .gather ∧ (j, c.ct) ∈ s.sent) ∨ (c.kind = .race ∧ s.index = some j)
  working : ∀ j, s.child j = .waiting → s.working j = true
  asking : ∀ j, s.child j = .asking → s.working j = true
  lt : ∀ j, s.child j = .waiting → j < c.n
  join : c.kind = .join → s.err ≠ none → s.phase ≠ .starting → ∀ j, s.sig j = true →
    ∃ p co ct since, Act.emit p co ct since ∈ fs ∧ co ≠ .ext ∧ p ≤ j
  race : c.kind = .race → g = true → s.index ≠ none → ∀ j, s.sig j = true →
    (∃ p co since, Act.intr p co since ∈ fs ∧ co ≠ .ext) ∨
    ∃ p co ct since, Act.emit p co ct since ∈ fs ∧ co ≠ .ext ∧ p ≤ j
  raceI : c.kind = .race → g = true → s.index ≠ none → ∀ j, s.child j = .waiting → c.intr j = true →
    j ∈ s.intd ∨ ∃ p co since, Act.intr p co since ∈ fs ∧ co ≠ .ext ∧ p ≤ j
  noExt : nc = true → ∀ p ct since, Act.emit p .ext ct since ∉ fs
  once : nc = true → ∀ j, (s.sent.map Prod.fst).count j ≤ 1 ∧
    (s.sig j = true ∨ (s.child j).fresh = true → (s.sent.map Prod.fst).count j = 0)

theorem Inv2.init (c : Cfg) : Inv2 c true true {} [] := by
  constructor <;> simp

/-- Code that touches neither signals nor results. -/
theorem Inv2.calm {c : Cfg} {g nc : Bool} {s t : St} {fs : List Act} (h : Inv2 c g nc s fs)
    (h1 : ∀ j, t.child j = .waiting → s.child j = .waiting ∧ t.working j = s.working j)
    (h2 : ∀ j, (t.child j).fresh = true → (s.child j).fresh = true)
    (h3 : t.sig = s.sig) (h4 : t.sent = s.sent) (h5 : t.intd = s.intd) (h6 : t.index = s.index) (h7 : t.err = s.err)
    (h8 : t.phase ≠ .starting → s.phase ≠ .starting ∨ (c.kind = .join → s.err ≠ none → ∀ j, s.sig j = false))
    (h9 : ∀ j, t.child j = .asking → t.working j = true ∨ (s.child j = .asking ∧ t.working j = s.working j) := by
      first | exact fun j hj => Or.inr ⟨hj, rfl⟩ | grind) :
    Inv2 c g nc t fs := by
  have hm : Mono c s t := ⟨fun j hj => (h1 j hj).1, by rw [h3]; exact fun _ h => h,
    fun j hj hh => by simpa only [St.hit, h3, (h1 j hj).2] using hh, ⟨[], h4⟩, ⟨[], h5⟩⟩
  constructor
  · exact fun a ha => hm.act (h.ok a ha)
  · exact h.emitK
  · exact h.intrK
  · intro j hj; rw [h3, h4, h6]; exact h.reach j (h1 j hj).1
  · intro j hj; rw [(h1 j hj).2]; exact h.working j (h1 j hj).1
  · intro j hj
    rcases h9 j hj with h10 | h10
    · exact h10
    · rw [h10.2]; exact h.asking j h10.1
  · intro j hj; exact h.lt j (h1 j hj).1
  · intro hk he hp j hj
    rw [h7] at he; rw [h3] at hj
    rcases h8 hp with h9 | h9
    · exact h.join hk he h9 j hj
    · rw [h9 hk he j] at hj; simp at hj
  · rw [h3, h6]; exact h.race
  · intro hk hg hx j hj hi
    rw [h6] at hx
    rw [h5]; exact h.raceI hk hg hx j (h1 j hj).1 hi
  · exact h.noExt
  · intro hn j
    rw [h3, h4]
    exact ⟨(h.once hn j).1, fun hx => (h.once hn j).2 (hx.imp id (h2 j))⟩

theorem Inv2.scanEmit {c : Cfg} {g nc : Bool} {s : St} {k ct since : Nat} {co : Cont}
    (h : Inv2 c g nc s (.emit k co ct since :: s.acts)) :
    let r := s.scanEmit c k co ct since
    Inv2 c g nc r.1 r.1.acts ∧ (r.2 = false → (co ≠ .ext → ∀ j, r.1.sig j = false) ∧
      (co = .ext → ∀ j, r.1.child j = .waiting → r.1.sig j = true → (j, ct) ∈ recent since r.1.sent)) := by
  have h0 := h.ok _ (List.mem_cons_self)
  unfold St.scanEmit
  split
  · rename_i j hj
    obtain ⟨hkj, hjn, hp, hx⟩ := next_some hj
    simp only [Bool.and_eq_true, beq_iff_eq] at hp
    dsimp only
    refine ⟨?_, by simp⟩
    -- the new state
    by_cases hco : co = .ext
    · subst hco
      simp only [if_true]
      have hm : Mono c s { s with sent := (j, ct) :: s.sent, stack := .emit j .ext ct since :: s.stack } :=
        ⟨fun _ h => h, fun _ h => h, fun _ _ h => h, ⟨[(j, ct)], rfl⟩, ⟨[], rfl⟩⟩
      have hacts : St.acts { s with sent := (j, ct) :: s.sent, stack := .emit j .ext ct since :: s.stack } =
          .emit (j + 1) .ext ct since :: s.acts := rfl
      rw [hacts]
      constructor
      · intro a ha
        rcases List.mem_cons.1 ha with rfl | ha
        · have hm0 := hm.act h0
          refine ⟨hm0.1, fun _ x hxj hw hs => ?_, fun hc => absurd rfl hc⟩
          by_cases hxk : x < k
          · exact hm0.2.1 rfl x hxk hw hs
          · by_cases hxj' : x = j
            · subst hxj'; exact recent_cons h0.1
            · have := hx x (by omega) (by omega)
              dsimp only at hw hs
              rw [hs, hw] at this; simp at this
        · exact hm.act (h.ok a (List.mem_cons_of_mem _ ha))
      · intro p co ct' n hm hne
        rcases List.mem_cons.1 hm with he | he
        · simp only [Act.emit.injEq] at he; exact absurd he.2.1 hne
        · exact h.emitK p co ct' n (List.mem_cons_of_mem _ he) hne
      · intro p co n hm hne
        rcases List.mem_cons.1 hm with he | he
        · simp at he
        · exact h.intrK p co n (List.mem_cons_of_mem _ he) hne
      · intro x hw
        rcases h.reach x hw with h1 | ⟨h1, h2⟩ | h1
        · exact Or.inl h1
        · exact Or.inr (Or.inl ⟨h1, List.mem_cons_of_mem _ h2⟩)
        · exact Or.inr (Or.inr h1)
      · exact h.working
      · exact h.asking
      · exact h.lt
      · intro hk he hph x hs
        obtain ⟨p, co, ct', n, h1, h2, h3⟩ := h.join hk he hph x hs
        rcases List.mem_cons.1 h1 with h4 | h4
        · simp only [Act.emit.injEq] at h4; exact absurd h4.2.1 h2
        · exact ⟨p, co, ct', n, List.mem_cons_of_mem _ h4, h2, h3⟩
      · intro hk hg hi x hs
        rcases h.race hk hg hi x hs with ⟨p, co, n, h1, h2⟩ | ⟨p, co, ct', n, h1, h2, h3⟩
        · rcases List.mem_cons.1 h1 with h4 | h4
          · simp at h4
          · exact Or.inl ⟨p, co, n, List.mem_cons_of_mem _ h4, h2⟩
        · rcases List.mem_cons.1 h1 with h4 | h4
          · simp only [Act.emit.injEq] at h4; exact absurd h4.2.1 h2
          · exact Or.inr ⟨p, co, ct', n, List.mem_cons_of_mem _ h4, h2, h3⟩
      · intro hk hg hi x hw hin
        rcases h.raceI hk hg hi x hw hin with h1 | ⟨p, co, n, h1, h2, h3⟩
        · exact Or.inl h1
        · rcases List.mem_cons.1 h1 with h4 | h4
          · simp at h4
          · exact Or.inr ⟨p, co, n, List.mem_cons_of_mem _ h4, h2, h3⟩
      · intro hn; exact absurd (List.mem_cons_self) (h.noExt hn k ct since)
      · intro hn; exact absurd (List.mem_cons_self) (h.noExt hn k ct since)
    · rw [if_neg hco]
      have h00 := h0.2.2 hco
      have hm : Mono c s { s with
          sig := fun x => if k ≤ x ∧ x ≤ j then false else s.sig x
          sent := (j, ct) :: s.sent, stack := .emit j co ct since :: s.stack } := by
        refine ⟨fun _ h => h, fun x hx => ?_, fun x _ hx => ?_, ⟨[(j, ct)], rfl⟩, ⟨[], rfl⟩⟩
        · dsimp only at hx; split at hx
          · simp at hx
          · exact hx
        · simp only [St.hit] at hx ⊢
          cases hk : c.kind <;> simp only [hk] at hx ⊢
          · exact hx
          · grind
          · exact hx
      have hacts : St.acts { s with
          sig := fun x => if k ≤ x ∧ x ≤ j then false else s.sig x
          sent := (j, ct) :: s.sent, stack := .emit j co ct since :: s.stack } =
          .emit (j + 1) co ct since :: s.acts := rfl
      rw [hacts]
      constructor
      · intro a ha
        rcases List.mem_cons.1 ha with rfl | ha
        · have hm0 := hm.act h0
          refine ⟨hm0.1, fun hc => absurd hc hco, fun _ => ⟨h00.1, fun x hxj => ?_⟩⟩
          dsimp only
          split
          · rfl
          · exact h00.2 x (by omega)
        · exact hm.act (h.ok a (List.mem_cons_of_mem _ ha))
      · intro p co' ct' n hm hne
        rcases List.mem_cons.1 hm with he | he
        · exact h.emitK k co ct since (List.mem_cons_self) hco
        · exact h.emitK p co' ct' n (List.mem_cons_of_mem _ he) hne
      · intro p co' n hm hne
        rcases List.mem_cons.1 hm with he | he
        · simp at he
        · exact h.intrK p co' n (List.mem_cons_of_mem _ he) hne
      · intro x hw
        dsimp only at hw ⊢
        rcases h.reach x hw with h1 | ⟨h1, h2⟩ | h1
        · by_cases hxx : k ≤ x ∧ x ≤ j
          · by_cases hxj : x = j
            · subst hxj
              exact Or.inr (Or.inl ⟨h.emitK k co ct since (List.mem_cons_self) hco, by rw [h00.1]; simp⟩)
            · have := hx x hxx.1 (by omega)
              rw [h1, hw] at this; simp at this
          · left; rw [if_neg hxx]; exact h1
        · exact Or.inr (Or.inl ⟨h1, List.mem_cons_of_mem _ h2⟩)
        · exact Or.inr (Or.inr h1)
      · exact h.working
      · exact h.asking
      · exact h.lt
      · intro hk he hph x hs
        refine ⟨j + 1, co, ct, since, List.mem_cons_self, hco, ?_⟩
        dsimp only at hs
        by_cases hxx : k ≤ x ∧ x ≤ j
        · rw [if_pos hxx] at hs; simp at hs
        · rw [if_neg hxx] at hs
          by_cases hxk : x < k
          · rw [h00.2 x hxk] at hs; simp at hs
          · omega
      · intro hk hg hi x hs
        right
        refine ⟨j + 1, co, ct, since, List.mem_cons_self, hco, ?_⟩
        dsimp only at hs
        by_cases hxx : k ≤ x ∧ x ≤ j
        · rw [if_pos hxx] at hs; simp at hs
        · rw [if_neg hxx] at hs
          by_cases hxk : x < k
          · rw [h00.2 x hxk] at hs; simp at hs
          · omega
      · intro hk hg hi x hw hin
        rcases h.raceI hk hg hi x hw hin with h1 | ⟨p, co', n, h1, h2, h3⟩
        · exact Or.inl h1
        · rcases List.mem_cons.1 h1 with h4 | h4
          · simp at h4
          · exact Or.inr ⟨p, co', n, List.mem_cons_of_mem _ h4, h2, h3⟩
      · intro hn p ct' n hm
        rcases List.mem_cons.1 hm with he | he
        · simp only [Act.emit.injEq] at he; exact hco he.2.1.symm
        · exact h.noExt hn p ct' n (List.mem_cons_of_mem _ he)
      · intro hn x
        dsimp only
        have h1 := h.once hn x
        have h2 := (h.once hn j).2 (Or.inl hp.1)
        rw [List.map_cons, List.count_cons]
        by_cases hxj : x = j
        · subst hxj
          simp only [beq_self_eq_true, if_true]
          refine ⟨by omega, fun h3 => ?_⟩
          rcases h3 with h3 | h3
          · rw [if_pos ⟨hkj, Nat.le_refl _⟩] at h3; simp at h3
          · rw [hp.2] at h3; simp [CS.fresh] at h3
        · have hjx : (j == x) = false := by simpa using fun h => hxj h.symm
          simp only [hjx, Bool.false_eq_true, if_false, Nat.add_zero]
          refine ⟨h1.1, fun h3 => h1.2 (h3.imp (fun h4 => ?_) id)⟩
          split at h4
          · simp at h4
          · exact h4
  · rename_i hj
    have hx := next_none hj
    dsimp only
    by_cases hco : co = .ext
    · subst hco
      simp only [if_true]
      refine ⟨?_, fun _ => ⟨fun h => absurd rfl h, fun _ x hw hs => ?_⟩⟩
      · have hacts : St.acts { s with sig := s.sig } = s.acts := rfl
        constructor
        · exact fun a ha => h.ok a (List.mem_cons_of_mem _ ha)
        · exact fun p co ct' n hm => h.emitK p co ct' n (List.mem_cons_of_mem _ hm)
        · exact fun p co n hm => h.intrK p co n (List.mem_cons_of_mem _ hm)
        · exact h.reach
        · exact h.working
        · exact h.asking
        · exact h.lt
        · intro hk he hph x hs
          obtain ⟨p, co, ct', n, h1, h2, h3⟩ := h.join hk he hph x hs
          rcases List.mem_cons.1 h1 with h4 | h4
          · simp only [Act.emit.injEq] at h4; exact absurd h4.2.1 h2
          · exact ⟨p, co, ct', n, h4, h2, h3⟩
        · intro hk hg hi x hs
          rcases h.race hk hg hi x hs with ⟨p, co, n, h1, h2⟩ | ⟨p, co, ct', n, h1, h2, h3⟩
          · rcases List.mem_cons.1 h1 with h4 | h4
            · simp at h4
            · exact Or.inl ⟨p, co, n, h4, h2⟩
          · rcases List.mem_cons.1 h1 with h4 | h4
            · simp only [Act.emit.injEq] at h4; exact absurd h4.2.1 h2
            · exact Or.inr ⟨p, co, ct', n, h4, h2, h3⟩
        · intro hk hg hi x hw hin
          rcases h.raceI hk hg hi x hw hin with h1 | ⟨p, co, n, h1, h2, h3⟩
          · exact Or.inl h1
          · rcases List.mem_cons.1 h1 with h4 | h4
            · simp at h4
            · exact Or.inr ⟨p, co, n, h4, h2, h3⟩
        · exact fun hn p ct' n hm => h.noExt hn p ct' n (List.mem_cons_of_mem _ hm)
        · exact h.once
      · by_cases hxk : x < k
        · exact h0.2.1 rfl x hxk hw hs
        · have := hx x (by omega) (h.lt x hw)
          rw [hs, hw] at this; simp at this
    · rw [if_neg hco]
      have h00 := h0.2.2 hco
      have hall : ∀ x, (if k ≤ x then false else s.sig x) = false := by
        intro x
        split
        · rfl
        · exact h00.2 x (by omega)
      have hm : Mono c s { s with sig := fun x => if k ≤ x then false else s.sig x } := by
        refine ⟨fun _ h => h, fun x hx => ?_, fun x _ hx => ?_, ⟨[], rfl⟩, ⟨[], rfl⟩⟩
        · dsimp only at hx; rw [hall] at hx; simp at hx
        · simp only [St.hit] at hx ⊢
          cases hk : c.kind <;> simp only [hk] at hx ⊢
          · exact hx
          · grind
          · exact hx
      refine ⟨?_, fun _ => ⟨fun _ => hall, fun h => absurd h hco⟩⟩
      constructor
      · exact fun a ha => hm.act (h.ok a (List.mem_cons_of_mem _ ha))
      · exact fun p co ct' n hm => h.emitK p co ct' n (List.mem_cons_of_mem _ hm)
      · exact fun p co n hm => h.intrK p co n (List.mem_cons_of_mem _ hm)
      · intro x hw
        dsimp only at hw ⊢
        rcases h.reach x hw with h1 | h1
        · exfalso
          by_cases hxk : x < k
          · rw [h00.2 x hxk] at h1; simp at h1
          · have := hx x (by omega) (h.lt x hw)
            rw [h1, hw] at this; simp at this
        · exact Or.inr h1
      · exact h.working
      · exact h.asking
      · exact h.lt
      · intro hk he hph x hs
        dsimp only at hs
        rw [hall] at hs; simp at hs
      · intro hk hg hi x hs
        dsimp only at hs
        rw [hall] at hs; simp at hs
      · intro hk hg hi x hw hin
        rcases h.raceI hk hg hi x hw hin with h1 | ⟨p, co', n, h1, h2, h3⟩
        · exact Or.inl h1
        · rcases List.mem_cons.1 h1 with h4 | h4
          · simp at h4
          · exact Or.inr ⟨p, co', n, h4, h2, h3⟩
      · exact fun hn p ct' n hm => h.noExt hn p ct' n (List.mem_cons_of_mem _ hm)
      · intro hn x
        dsimp only
        refine ⟨(h.once hn x).1, fun h3 => (h.once hn x).2 (Or.inr ?_)⟩
        rcases h3 with h3 | h3
        · rw [hall] at h3; simp at h3
        · exact h3

theorem Inv2.scanIntr {c : Cfg} {g nc : Bool} {s : St} {k since : Nat} {co : Cont}
    (h : Inv2 c g nc s (.intr k co since :: s.acts)) :
    let r := s.scanIntr c k co since
    (r.2 = true → Inv2 c g nc r.1 r.1.acts) ∧
    (r.2 = false → r.1 = s ∧ (co = .ext → Inv2 c g nc s s.acts) ∧
      (co ≠ .ext → Inv2 c g nc s (.emit 0 co c.ct s.sent.length :: s.acts)) ∧
      ∀ j, s.child j = .waiting → s.hit c j = true → j ∈ recent since s.intd) := by
  have h0 := h.ok _ (List.mem_cons_self)
  unfold St.scanIntr
  split
  · rename_i j hj
    obtain ⟨hkj, hjn, hp, hx⟩ := next_some hj
    dsimp only
    refine ⟨fun _ => ?_, by simp⟩
    have hm : Mono c s { s with intd := j :: s.intd, stack := .intr j co since :: s.stack } :=
      ⟨fun _ h => h, fun _ h => h, fun _ _ h => h, ⟨[], rfl⟩, ⟨[j], rfl⟩⟩
    have hacts : St.acts { s with intd := j :: s.intd, stack := .intr j co since :: s.stack } =
        .intr (j + 1) co since :: s.acts := rfl
    rw [hacts]
    constructor
    · intro a ha
      rcases List.mem_cons.1 ha with rfl | ha
      · have hm0 := hm.act h0
        refine ⟨hm0.1, fun x hxj hw hs => ?_⟩
        by_cases hxk : x < k
        · exact hm0.2 x hxk hw hs
        · by_cases hxj' : x = j
          · subst hxj'; exact recent_cons h0.1
          · have := hx x (by omega) (by omega)
            have hs' : s.hit c x = true := hs
            rw [hs'] at this; simp at this
      · exact hm.act (h.ok a (List.mem_cons_of_mem _ ha))
    · intro p co' ct' n hm hne
      rcases List.mem_cons.1 hm with he | he
      · simp at he
      · exact h.emitK p co' ct' n (List.mem_cons_of_mem _ he) hne
    · intro p co' n hm hne
      rcases List.mem_cons.1 hm with he | he
      · simp only [Act.intr.injEq] at he
        exact h.intrK k co since (List.mem_cons_self) (by rw [← he.2.1]; exact hne)
      · exact h.intrK p co' n (List.mem_cons_of_mem _ he) hne
    · exact h.reach
    · exact h.working
    · exact h.asking
    · exact h.lt
    · intro hk he hph x hs
      obtain ⟨p, co', ct', n, h1, h2, h3⟩ := h.join hk he hph x hs
      rcases List.mem_cons.1 h1 with h4 | h4
      · simp at h4
      · exact ⟨p, co', ct', n, List.mem_cons_of_mem _ h4, h2, h3⟩
    · intro hk hg hi x hs
      by_cases hco : co = .ext
      · rcases h.race hk hg hi x hs with ⟨p, co', n, h1, h2⟩ | ⟨p, co', ct', n, h1, h2, h3⟩
        · rcases List.mem_cons.1 h1 with h4 | h4
          · simp only [Act.intr.injEq] at h4; rw [h4.2.1] at h2; exact absurd hco h2
          · exact Or.inl ⟨p, co', n, List.mem_cons_of_mem _ h4, h2⟩
        · rcases List.mem_cons.1 h1 with h4 | h4
          · simp at h4
          · exact Or.inr ⟨p, co', ct', n, List.mem_cons_of_mem _ h4, h2, h3⟩
      · exact Or.inl ⟨j + 1, co, since, List.mem_cons_self, hco⟩
    · intro hk hg hi x hw hin
      rcases h.raceI hk hg hi x hw hin with h1 | ⟨p, co', n, h1, h2, h3⟩
      · exact Or.inl (List.mem_cons_of_mem _ h1)
      · rcases List.mem_cons.1 h1 with h4 | h4
        · simp only [Act.intr.injEq] at h4
          obtain ⟨rfl, rfl, rfl⟩ := h4
          by_cases hxj : x = j
          · subst hxj; exact Or.inl (by simp)
          · by_cases hxj' : x < j
            · have := hx x h3 hxj'
              simp [St.hit, hk, hin, h.working x hw] at this
            · exact Or.inr ⟨j + 1, co', n, List.mem_cons_self, h2, by omega⟩
        · exact Or.inr ⟨p, co', n, List.mem_cons_of_mem _ h4, h2, h3⟩
    · intro hn p ct' n hm
      rcases List.mem_cons.1 hm with he | he
      · simp at he
      · exact h.noExt hn p ct' n (List.mem_cons_of_mem _ he)
    · exact h.once
  · rename_i hj
    have hx := next_none hj
    dsimp only
    have hall : ∀ j, s.child j = .waiting → s.hit c j = true → j ∈ recent since s.intd := by
      intro j hw hh
      by_cases hjk : j < k
      · exact h0.2 j hjk hw hh
      · have := hx j (by omega) (h.lt j hw)
        rw [hh] at this; simp at this
    refine ⟨by simp, fun _ => ⟨rfl, fun hco => ?_, fun hco => ?_, hall⟩⟩
    · subst hco
      constructor
      · exact fun a ha => h.ok a (List.mem_cons_of_mem _ ha)
      · exact fun p co ct' n hm => h.emitK p co ct' n (List.mem_cons_of_mem _ hm)
      · exact fun p co n hm => h.intrK p co n (List.mem_cons_of_mem _ hm)
      · exact h.reach
      · exact h.working
      · exact h.asking
      · exact h.lt
      · intro hk he hph x hs
        obtain ⟨p, co', ct', n, h1, h2, h3⟩ := h.join hk he hph x hs
        rcases List.mem_cons.1 h1 with h4 | h4
        · simp at h4
        · exact ⟨p, co', ct', n, h4, h2, h3⟩
      · intro hk hg hi x hs
        rcases h.race hk hg hi x hs with ⟨p, co', n, h1, h2⟩ | ⟨p, co', ct', n, h1, h2, h3⟩
        · rcases List.mem_cons.1 h1 with h4 | h4
          · simp only [Act.intr.injEq] at h4; exact absurd h4.2.1 h2
          · exact Or.inl ⟨p, co', n, h4, h2⟩
        · rcases List.mem_cons.1 h1 with h4 | h4
          · simp at h4
          · exact Or.inr ⟨p, co', ct', n, h4, h2, h3⟩
      · intro hk hg hi x hw hin
        rcases h.raceI hk hg hi x hw hin with h1 | ⟨p, co', n, h1, h2, h3⟩
        · exact Or.inl h1
        · rcases List.mem_cons.1 h1 with h4 | h4
          · simp only [Act.intr.injEq] at h4; exact absurd h4.2.1 h2
          · exact Or.inr ⟨p, co', n, h4, h2, h3⟩
      · exact fun hn p ct' n hm => h.noExt hn p ct' n (List.mem_cons_of_mem _ hm)
      · exact h.once
    · constructor
      · intro a ha
        rcases List.mem_cons.1 ha with rfl | ha
        · exact ⟨Nat.le_refl _, fun h => absurd h hco, fun _ => ⟨rfl, fun j hj => absurd hj (Nat.not_lt_zero _)⟩⟩
        · exact h.ok a (List.mem_cons_of_mem _ ha)
      · intro p co' ct' n hm hne
        rcases List.mem_cons.1 hm with he | he
        · rw [h.intrK k co since (List.mem_cons_self) hco]; simp
        · exact h.emitK p co' ct' n (List.mem_cons_of_mem _ he) hne
      · intro p co' n hm hne
        rcases List.mem_cons.1 hm with he | he
        · simp at he
        · exact h.intrK p co' n (List.mem_cons_of_mem _ he) hne
      · exact h.reach
      · exact h.working
      · exact h.asking
      · exact h.lt
      · intro hk he hph x hs
        exact ⟨0, co, _, _, List.mem_cons_self, hco, Nat.zero_le _⟩
      · intro hk hg hi x hs
        exact Or.inr ⟨0, co, _, _, List.mem_cons_self, hco, Nat.zero_le _⟩
      · intro hk hg hi x hw hin
        rcases h.raceI hk hg hi x hw hin with h1 | ⟨p, co', n, h1, h2, h3⟩
        · exact Or.inl h1
        · rcases List.mem_cons.1 h1 with h4 | h4
          · left
            refine recent_sub (hall x hw ?_)
            simp [St.hit, hk, hin, h.working x hw]
          · exact Or.inr ⟨p, co', n, List.mem_cons_of_mem _ h4, h2, h3⟩
      · intro hn p ct' n hm
        rcases List.mem_cons.1 hm with he | he
        · simp only [Act.emit.injEq] at he; exact hco he.2.1.symm
        · exact h.noExt hn p ct' n (List.mem_cons_of_mem _ he)
      · exact h.once

end Cobalt.Comb
