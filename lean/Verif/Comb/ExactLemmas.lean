import Verif.Comb.PropsLife
/-! After the awaiter was resumed only returns happen: what they lead to. -/
namespace Cobalt.Comb

/-- The call was made by a loop that forwards a cancellation or an interruption from outside, and the
loop has another child to look at when the call returns. -/
def Frame.Goes (c : Cfg) : Frame → Prop
  | .intr k .ext _ => ∃ j, k < j ∧ j < c.n ∧ (c.kind = .race ∨ c.intr j = true)
  | .emit k .ext _ _ => k + 1 < c.n
  | _ => False

theorem looksOn_iff (c : Cfg) (k : Nat) :
    St.looksOn c k = true ↔ ∃ j, k < j ∧ j < c.n ∧ (c.kind = .race ∨ c.intr j = true) := by
  unfold St.looksOn
  split
  · rename_i h
    simp only [decide_eq_true_eq, h, true_or, and_true]
    exact ⟨fun h => ⟨k + 1, by omega, h⟩, fun ⟨j, h1, h2⟩ => by omega⟩
  · rename_i h
    constructor
    · intro h1
      cases hx : St.next c.n (k + 1) c.intr with
      | none => rw [hx] at h1; simp at h1
      | some j =>
        obtain ⟨a, b, d, -⟩ := next_some hx
        exact ⟨j, by omega, b, Or.inr d⟩
    · rintro ⟨j, a, b, d⟩
      cases hx : St.next c.n (k + 1) c.intr with
      | none =>
        have := next_none hx j (by omega) b
        rcases d with d | d
        · exact absurd d h
        · rw [this] at d; simp at d
      | some j => rfl

/-- The state after the awaiter was resumed. -/
structure Gone (s : St) : Prop where
  ub : s.ub = false
  phase : s.phase = .resumed
  nowait : ∀ i, s.child i ≠ .waiting
  frames : ∀ f ∈ s.stack, f.tag = .co .ext ∨ ∃ i, f.tag = .co (.txn i)

theorem Gone.of_run {c : Cfg} (hc : c.Ok) {es : List Ev} (hl : Legal c {} es) (hu : (St.run c es).ub = false)
    (hp : (St.run c es).phase = .resumed) : Gone (St.run c es) := by
  have hi := (All.run hc hl hu).inv
  have hact := (C13_resume_once hc hl hu).2.2.2 (Or.inl hp)
  refine ⟨hu, hp, ?_, ?_⟩
  · intro i hw; have := hact i; rw [hw] at this; simp [CS.active] at this
  · intro f hf
    have ht : f.tag ∈ (St.run c es).tags := List.mem_map.2 ⟨f, hf, rfl⟩
    have hs : f.tag.isStart = false := by
      have := hi.starts
      rw [if_neg (by rw [hp]; simp), List.countP_eq_zero] at this
      simpa using this _ ht
    have hr : ∀ i b, f.tag ≠ .co (.finish i b) := by
      intro i b h
      have := (hi.running i).2 (List.mem_filterMap.2 ⟨f.tag, ht, by rw [h]; rfl⟩)
      have h2 := hact i
      rw [this] at h2; simp [CS.active] at h2
    revert hs hr
    cases f.tag with
    | ask k => simp [Tag.isStart]
    | start k => simp [Tag.isStart]
    | loop => simp [Tag.isStart]
    | co co =>
      cases co with
      | finish i b => intro _ hr; exact absurd rfl (hr i b)
      | txn i => intro _ _; exact Or.inr ⟨i, rfl⟩
      | startEnd => simp [Tag.isStart]
      | ext => intro _ _; exact Or.inl rfl

theorem scanEmit_nowait {c : Cfg} {s : St} (h : ∀ i, s.child i ≠ .waiting) (k : Nat) (co : Cont) (ct since : Nat) :
    s.scanEmit c k co ct since =
      ({ s with sig := if co = .ext then s.sig else fun x => if k ≤ x then false else s.sig x }, false) := by
  have hn : St.next c.n k (fun j => s.sig j && s.child j == .waiting) = none := by
    cases hx : St.next c.n k (fun j => s.sig j && s.child j == .waiting) with
    | none => rfl
    | some j =>
      have := (next_some hx).2.2.1
      simp at this
      exact absurd this.2 (h j)
  unfold St.scanEmit
  rw [hn]

/-- One return: undefined if the loop goes on, else the call is over or, inside `begin_transaction`, the loop
calls a later child. -/
theorem Gone.ret {c : Cfg} {s : St} (h : Gone s) {f : Frame} {rest : List Frame} (hs : s.stack = f :: rest) :
    (f.Goes c ∧ (s.step c (.ret false)).ub = true) ∨
    (¬ f.Goes c ∧ Gone (s.step c (.ret false)) ∧
      ((s.step c (.ret false)).stack = rest ∨
        ∃ k j i a, f = .intr k (.txn i) a ∧ k < j ∧ j < c.n ∧ (s.step c (.ret false)).stack = .intr j (.txn i) a :: rest)) := by
  have hr : ∀ g ∈ rest, g.tag = .co .ext ∨ ∃ i, g.tag = .co (.txn i) := fun g hg => h.frames g (by rw [hs]; simp [hg])
  have hf := h.frames f (by rw [hs]; simp)
  have hcan : s.can c (.ret false) = true := by
    unfold St.can; rw [hs]
    cases f <;> simp [Frame.tag] at hf <;> rfl
  cases f with
  | asking k => simp [Frame.tag] at hf
  | starting k => simp [Frame.tag] at hf
  | intr k co a =>
    by_cases hg : co = .ext ∧ St.looksOn c k = true
    · left
      obtain ⟨rfl, hl⟩ := hg
      refine ⟨(looksOn_iff c k).1 hl, ?_⟩
      unfold St.step
      rw [if_neg (by simp [h.ub, hcan])]
      simp [hs, h.phase, hl]
    · right
      have hng : ¬ (Frame.intr k co a).Goes c := by
        intro hx
        cases co <;> simp only [Frame.Goes] at hx
        exact hg ⟨rfl, (looksOn_iff c k).2 hx⟩
      have he : s.step c (.ret false) = St.contIntr c { s with stack := rest } (k + 1) co a false := by
        unfold St.step
        rw [if_neg (by simp [h.ub, hcan])]
        simp only [hs]
        rw [if_neg (fun hx => hg ⟨hx.1, hx.2.2⟩)]
      refine ⟨hng, ?_⟩
      rw [he]
      unfold St.contIntr St.scanIntr
      cases hx : St.next c.n (k + 1) (St.hit c { s with stack := rest }) with
      | none =>
        simp only [Bool.false_eq_true, if_false]
        split
        · exact ⟨⟨h.ub, h.phase, h.nowait, hr⟩, Or.inl rfl⟩
        · rename_i hco
          simp only [Frame.tag, Tag.co.injEq] at hf
          rcases hf with hf | ⟨i, rfl⟩
          · exact absurd hf hco
          unfold St.contEmit
          rw [scanEmit_nowait (by exact h.nowait)]
          exact ⟨⟨h.ub, h.phase, h.nowait, hr⟩, Or.inl rfl⟩
      | some j =>
        obtain ⟨h1, h2, h3, -⟩ := next_some hx
        have hco : co ≠ .ext := by
          intro hc
          refine hg ⟨hc, (looksOn_iff c k).2 ⟨j, by omega, h2, ?_⟩⟩
          unfold St.hit at h3
          cases hk : c.kind <;> rw [hk] at h3 <;> simp at h3
          · exact Or.inr h3
          · exact Or.inr h3.1
          · exact Or.inl rfl
        simp only [Frame.tag, Tag.co.injEq] at hf
        rcases hf with hf | ⟨i, rfl⟩
        · exact absurd hf hco
        refine ⟨⟨h.ub, h.phase, h.nowait, ?_⟩, Or.inr ⟨k, j, i, a, rfl, by omega, h2, rfl⟩⟩
        intro g hg
        rcases List.mem_cons.1 hg with rfl | hg
        · exact Or.inr ⟨i, rfl⟩
        · exact hr g hg
  | emit k co ct a =>
    by_cases hg : co = .ext ∧ k + 1 < c.n
    · left
      obtain ⟨rfl, hl⟩ := hg
      refine ⟨hl, ?_⟩
      unfold St.step
      rw [if_neg (by simp [h.ub, hcan])]
      simp [hs, h.phase, hl]
    · right
      have hng : ¬ (Frame.emit k co ct a).Goes c := by
        intro hx
        cases co <;> simp only [Frame.Goes] at hx
        exact hg ⟨rfl, hx⟩
      have he : s.step c (.ret false) = St.contEmit c { s with stack := rest } (k + 1) co ct a false := by
        unfold St.step
        rw [if_neg (by simp [h.ub, hcan])]
        simp only [hs]
        rw [if_neg (fun hx => hg ⟨hx.1, hx.2.2⟩)]
      refine ⟨hng, ?_⟩
      rw [he]
      unfold St.contEmit
      rw [scanEmit_nowait (by exact h.nowait)]
      simp only [Frame.tag, Tag.co.injEq] at hf
      rcases hf with rfl | ⟨i, rfl⟩ <;>
        exact ⟨⟨h.ub, h.phase, h.nowait, hr⟩, Or.inl rfl⟩

/-- How far the first loop has got. -/
def Frame.at? : Frame → Nat
  | .intr k _ _ => k
  | _ => 0

theorem Gone.reaches {c : Cfg} : ∀ (m : Nat) {s : St}, Gone s →
    s.stack.length * (c.n + 1) + (c.n - (s.stack.head?.map Frame.at?).getD 0) ≤ m →
    (∃ f ∈ s.stack, f.Goes c) → ∃ l, (s.steps c (List.replicate l (.ret false))).ub = true
  | m, s, h, hm, hex => by
    cases hs : s.stack with
    | nil => rw [hs] at hex; simp at hex
    | cons f rest =>
      rcases h.ret (c := c) hs with ⟨-, h1⟩ | ⟨h0, h1, h2⟩
      · exact ⟨1, h1⟩
      · have hlt : (s.step c (.ret false)).stack.length * (c.n + 1) +
            (c.n - ((s.step c (.ret false)).stack.head?.map Frame.at?).getD 0) < m := by
          rw [hs] at hm
          rcases h2 with h2 | ⟨k, j, i, a, rfl, h3, h4, h2⟩
          · rw [h2]
            simp only [List.length_cons, Nat.add_mul, Nat.one_mul] at hm
            omega
          · rw [h2]
            simp only [List.length_cons, List.head?_cons, Option.map_some, Option.getD_some, Frame.at?] at hm ⊢
            omega
        have hex' : ∃ g ∈ (s.step c (.ret false)).stack, g.Goes c := by
          obtain ⟨g, hg, hgo⟩ := hex
          rw [hs] at hg
          rcases List.mem_cons.1 hg with he | hg'
          · exact absurd (he ▸ hgo) h0
          · rcases h2 with h2 | ⟨k, j, i, a, rfl, h3, h4, h2⟩ <;> rw [h2]
            · exact ⟨g, hg', hgo⟩
            · exact ⟨g, List.mem_cons_of_mem _ hg', hgo⟩
        obtain ⟨m', rfl⟩ : ∃ m', m = m' + 1 := ⟨m - 1, by omega⟩
        obtain ⟨l, hl⟩ := Gone.reaches m' h1 (by omega) hex'
        exact ⟨l + 1, hl⟩

theorem Gone.stays {c : Cfg} : ∀ (l : Nat) {s : St}, Gone s → (∀ f ∈ s.stack, ¬ f.Goes c) →
    (s.steps c (List.replicate l (.ret false))).ub = false
  | 0, s, h, _ => h.ub
  | l + 1, s, h, hno => by
    show (St.steps c (s.step c (.ret false)) (List.replicate l (.ret false))).ub = false
    cases hs : s.stack with
    | nil =>
      have : s.step c (.ret false) = s := by
        unfold St.step; rw [if_pos (by simp [St.can, hs])]
      rw [this]; exact Gone.stays l h hno
    | cons f rest =>
      rcases h.ret (c := c) hs with ⟨h0, -⟩ | ⟨h0, h1, h2⟩
      · exact absurd h0 (hno f (by rw [hs]; simp))
      · refine Gone.stays l h1 ?_
        intro g hg
        rcases h2 with h2 | ⟨k, j, i, a, rfl, h3, h4, h2⟩ <;> rw [h2] at hg
        · exact hno g (by rw [hs]; simp [hg])
        · rcases List.mem_cons.1 hg with rfl | hg
          · simp [Frame.Goes]
          · exact hno g (by rw [hs]; simp [hg])

/-- Undefined behaviour has no other cause. -/
theorem ub_cause {c : Cfg} (hn : c.order ≠ []) {s : St} {e : Ev} (hu : s.ub = false) (hub : (s.step c e).ub = true) :
    s.phase = .resumed ∧ ∃ f ∈ s.stack, f.Goes c := by
  by_cases hcan : s.can c e = true
  · unfold St.step at hub
    rw [if_neg (by simp [hu, hcan])] at hub
    have no : ∀ {t : St}, t.ub = true → t.ub = s.ub → False := by
      intro t h1 h2; rw [h2, hu] at h1; simp at h1
    cases e with
    | begin =>
      dsimp only at hub; rw [if_neg hn] at hub
      exact (no hub (Shape.startNext c _ (cur := .loop) rfl).ub).elim
    | ready i o d => exact (no hub (Shape.complete ..).ub).elim
    | notReady i => exact (no hub rfl).elim
    | thrown i x d => exact (no hub (Shape.thrown ..).ub).elim
    | fin i o => exact (no hub (Shape.complete ..).ub).elim
    | txn i =>
      dsimp only at hub
      split at hub
      · exact (no hub (Shape.contIntr ..).ub).elim
      · exact (no hub rfl).elim
    | cancel ct => exact (no hub (Shape.contEmit ..).ub).elim
    | interrupt => exact (no hub (Shape.contIntr ..).ub).elim
    | ret d =>
      cases hs : s.stack with
      | nil => simp [hs, hu] at hub
      | cons f rest =>
        cases f with
        | asking k => simp [hs, hu] at hub
        | starting k =>
          simp only [hs] at hub
          exact (no hub (Shape.afterStart c _ _ _ (cur := .loop) rfl).ub).elim
        | intr k co since =>
          simp only [hs] at hub
          split at hub
          · rename_i h0
            obtain ⟨rfl, h1, h2⟩ := h0
            exact ⟨h1, _, List.mem_cons_self, (looksOn_iff c k).1 h2⟩
          · exact (no hub (Shape.contIntr ..).ub).elim
        | emit k co ct since =>
          simp only [hs] at hub
          split at hub
          · rename_i h0
            obtain ⟨rfl, h1, h2⟩ := h0
            exact ⟨h1, _, List.mem_cons_self, h2⟩
          · exact (no hub (Shape.contEmit ..).ub).elim
  · unfold St.step at hub
    rw [if_pos (by simp [hcan])] at hub
    rw [hu] at hub; simp at hub

theorem ub_prefix {c : Cfg} (hn : c.order ≠ []) : ∀ (es : List Ev) {s : St}, Legal c s es → s.ub = false →
    (s.steps c es).ub = true → ∃ pre post, es = pre ++ post ∧ Legal c s pre ∧ (s.steps c pre).ub = false ∧
      (s.steps c pre).phase = .resumed ∧ ∃ f ∈ (s.steps c pre).stack, f.Goes c
  | [], s, _, hu, hub => by rw [show St.steps c s [] = s from rfl, hu] at hub; simp at hub
  | e :: es, s, hl, hu, hub => by
    by_cases h1 : (s.step c e).ub = true
    · have := ub_cause hn hu h1
      exact ⟨[], e :: es, rfl, trivial, hu, this⟩
    · obtain ⟨pre, post, rfl, h2, h3⟩ := ub_prefix hn es hl.2 (by simpa using h1) hub
      exact ⟨e :: pre, post, rfl, ⟨hl.1, h2⟩, h3⟩

end Cobalt.Comb
