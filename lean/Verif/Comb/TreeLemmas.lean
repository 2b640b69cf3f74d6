import Verif.Comb.TreeModel
import Verif.Comb.PropsResult
/-! Invariants of trees of combinators. -/
namespace Cobalt.Comb

/-- The history of a node. -/
structure Node (c : Cfg) (es : List Ev) : Prop where
  ok : c.Ok
  legal : Legal c {} es
  ub : (St.run c es).ub = false

theorem legal_snoc {c : Cfg} : ∀ (es : List Ev) {s : St} {e : Ev}, Legal c s es → (s.steps c es).can c e = true →
    Legal c s (es ++ [e])
  | [], _, _, _, h => ⟨h, trivial⟩
  | _ :: es, _, _, hl, h => ⟨hl.1, legal_snoc es hl.2 h⟩

theorem run_snoc (c : Cfg) (es : List Ev) (e : Ev) : St.run c (es ++ [e]) = (St.run c es).step c e := by
  simp [St.run, St.steps]

namespace Node

variable {c : Cfg} {es : List Ev}

theorem snoc (h : Node c es) {e : Ev} (h1 : (St.run c es).can c e = true)
    (h2 : ((St.run c es).step c e).ub = false) : Node c (es ++ [e]) :=
  ⟨h.ok, legal_snoc es h.legal h1, by rw [run_snoc]; exact h2⟩

theorem inv (h : Node c es) : Inv c (St.run c es) (St.run c es).tags := (All.run h.ok h.legal h.ub).inv

theorem before (h : Node c es) : (St.run c es).phase = .before ↔ es = [] := by
  constructor
  · intro hp
    cases Classical.em (es = []) with
    | inl h => exact h
    | inr hn =>
      obtain ⟨i, hi⟩ : ∃ i, (St.run c es).child i ≠ .idle := by
        cases es with
        | nil => exact absurd rfl hn
        | cons e es =>
          have hb : e = .begin := before_can (Inv.init c) rfl h.legal.1
          subst hb
          have hu1 : (St.step c {} .begin).ub = false := by
            cases hx : (St.step c {} .begin).ub
            · rfl
            · have := steps_ub (c := c) es hx
              rw [show St.steps c (St.step c {} .begin) es = St.run c (.begin :: es) from rfl, h.ub] at this
              simp at this
          have h1 : Hist c (St.step c {} .begin) ([] ++ [.begin]) := by
            have := (All.run (c := c) (es := [.begin]) h.ok ⟨h.legal.1, trivial⟩ hu1).hist
            exact this
          have hph : (St.step c {} .begin).phase ≠ .before := by
            have hi := (All.run (c := c) (es := [.begin]) h.ok ⟨h.legal.1, trivial⟩ hu1).inv
            intro hp
            have hp' : (St.run c [.begin]).phase = .before := hp
            have h4 := (hi.before hp').2.1
            have h3 := hi.starts
            unfold St.run St.steps at h4 hp'
            simp only [List.foldl_cons, List.foldl_nil] at h4 hp'
            unfold St.step at hp' hu1
            rw [if_neg (by simp [St.can])] at hp' hu1
            dsimp only at hp' hu1
            split at hp'
            · simp at hp'
            · unfold St.startNext at hp'
              cases ho : c.order with
              | nil => simp_all
              | cons a l => simp [ho] at hp'
          obtain ⟨i, hi⟩ := h1.some hph
          refine ⟨i, ?_⟩
          have key : ∀ (es : List Ev) (s : St), Inv c s s.tags → s.ub = false → Legal c s es →
              (s.steps c es).ub = false → s.child i ≠ .idle → (s.steps c es).child i ≠ .idle := by
            intro es
            induction es with
            | nil => intro s _ _ _ _ h; simpa [St.steps] using h
            | cons e es ih =>
              intro s hi hu hl hu' h
              have hu1 : (s.step c e).ub = false := by
                cases hx : (s.step c e).ub
                · rfl
                · have := steps_ub (c := c) es hx
                  rw [show St.steps c (s.step c e) es = St.steps c s (e :: es) from rfl, hu'] at this; simp at this
              have hi1 : Inv c (s.step c e) (s.step c e).tags := by
                rcases hi.step ‹Node c _›.ok e with h1 | h1
                · rw [hu1] at h1; simp at h1
                · exact h1
              exact ih _ hi1 hu1 hl.2 hu' (step_idle hi hu hl.1 i h)
          exact key es _ (All.run (c := c) (es := [.begin]) h.ok ⟨h.legal.1, trivial⟩ hu1).inv hu1 h.legal.2 h.ub hi
      exact absurd ((h.inv.before hp).2.2.2 i) hi
  · rintro rfl; rfl

/-- After the end only loops of outside calls go on. -/
theorem after (h : Node c es) (ho : (St.run c es).over) {e : Ev} (h1 : (St.run c es).can c e = true)
    (h2 : ((St.run c es).step c e).ub = false) :
    e.ends = none ∧ (∀ i, e ≠ .notReady i) ∧ ((St.run c es).step c e).phase = (St.run c es).phase ∧
    Sim (St.run c es) ((St.run c es).step c e) := by
  have hi := h.inv
  have hact := (C13_resume_once h.ok h.legal h.ub).2.2.2 ho
  have hps : (St.run c es).phase ≠ .starting := by rcases ho with h | h <;> rw [h] <;> simp
  have nostart : ∀ t ∈ (St.run c es).tags, t.isStart = false := by
    have := hi.starts
    rw [if_neg hps, List.countP_eq_zero] at this
    intro t ht; simpa using this t ht
  have noask : ∀ i, (St.run c es).stack.head? ≠ some (.asking i) := by
    intro i hh
    have := nostart (.ask i) (by rw [tags_of_head hh]; simp [Frame.tag])
    simp [Tag.isStart] at this
  have nostart' : ∀ i, (St.run c es).stack.head? ≠ some (.starting i) := by
    intro i hh
    have := nostart (.start i) (by rw [tags_of_head hh]; simp [Frame.tag])
    simp [Tag.isStart] at this
  have nowait : ∀ i, (St.run c es).child i ≠ .waiting := by
    intro i hw; have := hact i; rw [hw] at this; simp [CS.active] at this
  cases e with
  | begin => rcases ho with h | h <;> simp [St.can, h] at h1
  | ready i o d => exact absurd (by simpa [St.can] using h1) (noask i)
  | notReady i => exact absurd (by simpa [St.can] using h1) (noask i)
  | thrown i x d =>
    have := h1
    simp only [St.can, Bool.or_eq_true, beq_iff_eq, Bool.and_eq_true] at this
    rcases this with h3 | h3
    · exact absurd h3 (noask i)
    · exact absurd h3.1 (nostart' i)
  | fin i o =>
    simp only [St.can, beq_iff_eq, Bool.and_eq_true] at h1
    exact absurd h1.1 (nowait i)
  | txn i =>
    simp only [St.can, beq_iff_eq, Bool.and_eq_true] at h1
    exact absurd h1.1.2 (nowait i)
  | cancel ct => rcases ho with h | h <;> simp [St.can, h] at h1
  | interrupt => rcases ho with h | h <;> simp [St.can, h] at h1
  | ret d =>
    refine ⟨rfl, by simp, ?_, step_sim hi h.ub h1⟩
    rcases step_shape c (St.run c es) (.ret d) h.ub h1 with ⟨i, h4⟩ | h4 | ⟨cur, s₀, h4, -, h5, h6⟩
    · simp at h4
    · rw [h2] at h4; simp at h4
    · have hcs : cur.isStart = false := by
        rcases h6 with ⟨i, h7, -⟩ | ⟨co, h7, h8⟩
        · have := nostart (.start i) (by rw [h7]; simp); simp [Tag.isStart] at this
        · rw [h8]; exact nostart _ (by rw [h7]; simp)
      rcases h4.going hcs with h7 | ⟨h7, -⟩
      · rw [h7, h5 (by simp)]
      · rw [h5 (by simp)] at h7
        rcases ho with h | h <;> rw [h] at h7 <;> simp at h7

theorem resume_congr {c : Cfg} {s t : St} (h : Sim s t) : t.resume c = s.resume c := by
  unfold St.resume
  rw [h.res, h.err, h.index, h.result]

theorem record_err {c : Cfg} {s : St} {i : Nat} {o : Out} {b : Bool} {x : Nat}
    (h : (s.record c i o b).err = some x) : s.err = some x ∨ o = .err x := by
  unfold St.record St.raceReady St.raceSuspended at h
  repeat' split at h
  all_goals first
    | exact Or.inl h
    | (dsimp only at h; repeat' split at h) <;> first
      | exact Or.inl h
      | (right; simp_all)

theorem recordThrown_err {c : Cfg} {s : St} {i : Nat} {e x : Nat}
    (h : (s.recordThrown c i e).err = some x) : s.err = some x ∨ e = x := by
  unfold St.recordThrown at h
  repeat' split at h
  all_goals first
    | exact Or.inl h
    | (dsimp only at h; repeat' split at h) <;> first
      | exact Or.inl h
      | (right; simp_all)

/-- What is thrown is the outcome of one of the awaitables. -/
theorem err_from (h : Node c es) {x : Nat} (hx : (St.run c es).err = some x) :
    ∃ e ∈ es, ∃ i, e.ends = some (i, .err x) := by
  have key : ∀ (es : List Ev) (s : St), Inv c s s.tags → s.ub = false → Legal c s es →
      (s.steps c es).ub = false → (s.steps c es).err = some x → s.err = some x ∨
      ∃ e ∈ es, ∃ i, e.ends = some (i, .err x) := by
    intro es
    induction es with
    | nil => intro s _ _ _ _ h; exact Or.inl h
    | cons e es ih =>
      intro s hi hu hl hu' hx
      have hu1 : (s.step c e).ub = false := by
        cases hx : (s.step c e).ub
        · rfl
        · have := steps_ub (c := c) es hx
          rw [show St.steps c (s.step c e) es = St.steps c s (e :: es) from rfl, hu'] at this; simp at this
      have hi1 : Inv c (s.step c e) (s.step c e).tags := by
        rcases hi.step h.ok e with h1 | h1
        · rw [hu1] at h1; simp at h1
        · exact h1
      rcases ih _ hi1 hu1 hl.2 hu' hx with h1 | ⟨e', h1, h2⟩
      · have hs := step_sim hi hu hl.1
        have : s.err = some x ∨ ∃ i, e.ends = some (i, .err x) := by
          cases e <;> simp only at hs <;> rw [hs.err] at h1
          case ready i o d => exact (record_err h1).imp id fun h => ⟨i, by rw [h]; rfl⟩
          case thrown i y d => exact (recordThrown_err h1).imp id fun h => ⟨i, by rw [h]; rfl⟩
          case fin i o => exact (record_err h1).imp id fun h => ⟨i, by rw [h]; rfl⟩
          case txn i => left; grind
          all_goals exact Or.inl h1
        rcases this with h2 | h2
        · exact Or.inl h2
        · exact Or.inr ⟨e, by simp, h2⟩
      · exact Or.inr ⟨e', by simp [h1], h2⟩
  rcases key es {} (Inv.init c) rfl h.legal h.ub hx with h1 | h1
  · simp at h1
  · exact h1

end Node

namespace Tree

/-- What a node knows about the combinator it awaits. -/
structure Link (c : Cfg) (es : List Ev) (j : Nat) (t : Tree) : Prop where
  told : ∀ e ∈ es, ∀ o, e.ends = some (j, o) → t.over ∧ t.gives o = true
  waits : (St.run c es).child j = .waiting → t.begun = true
  later : t.begun = true → (St.run c es).child j ≠ .idle

def Good : Tree → Prop
  | leaf => True
  | node c es kids => Node c es ∧ ∀ j, ((kids j).isLeaf = false → Link c es j (kids j)) ∧ (kids j).Good

theorem fresh_good : ∀ t : Tree, t.Fresh → t.Good
  | leaf, _ => trivial
  | node c es kids, h => by
    obtain ⟨h1, -, rfl, h3⟩ := h
    refine ⟨⟨h1, trivial, rfl⟩, fun j => ⟨fun _ => ⟨by simp, ?_, ?_⟩, fresh_good _ (h3 j)⟩⟩
    · intro h; cases h
    · intro hb
      have := h3 j
      cases hk : kids j with
      | leaf => rw [hk] at hb; cases hb
      | node c' es' kids' => rw [hk] at hb this; obtain ⟨-, -, rfl, -⟩ := this; cases hb

/-- What stays when a node goes on. -/
structure Grows (t u : Tree) : Prop where
  leaf : u.isLeaf = t.isLeaf
  over : t.over → u.over ∧ ∀ o, t.gives o = true → u.gives o = true
  begun : t.begun = true → u.begun = true

theorem Grows.refl (t : Tree) : Grows t t := ⟨rfl, fun h => ⟨h, fun _ h => h⟩, fun h => h⟩

theorem feed_eq {t u : Tree} {e : Ev} (h : t.feed e = .ok u) : ∃ c es kids, t = node c es kids ∧
    u = node c (es ++ [e]) kids ∧ (St.run c es).can c e = true ∧ ((St.run c es).step c e).ub = false := by
  cases t with
  | leaf => simp [feed] at h
  | node c es kids =>
    simp only [feed] at h
    split at h
    · split at h
      · simp at h
      · rename_i h1 h2
        simp only [Next.ok.injEq] at h
        exact ⟨c, es, kids, rfl, h.symm, h1, by simpa using h2⟩
    · simp at h

theorem feed_grows {t u : Tree} {e : Ev} (hg : t.Good) (h : t.feed e = .ok u) : Grows t u := by
  obtain ⟨c, es, kids, rfl, rfl, h1, h2⟩ := feed_eq h
  refine ⟨rfl, fun ho => ?_, fun _ => by simp [begun]⟩
  obtain ⟨-, -, h3, h4⟩ := hg.1.after ho h1 h2
  refine ⟨?_, fun o ho' => ?_⟩
  · simp only [over, St.over, run_snoc, h3]; exact ho
  · simp only [gives, run_snoc] at ho' ⊢
    rw [Node.resume_congr h4]; exact ho'

theorem feed_good {t u : Tree} {e : Ev} (hg : t.Good) (h : t.feed e = .ok u)
    (h1 : ∀ j o, e.ends = some (j, o) → (t.kid j).isLeaf = false → (t.kid j).over ∧ (t.kid j).gives o = true)
    (h2 : ∀ j, e = .notReady j → (t.kid j).isLeaf = false → (t.kid j).begun = true) : u.Good := by
  obtain ⟨c, es, kids, rfl, rfl, h3, h4⟩ := feed_eq h
  refine ⟨hg.1.snoc h3 h4, fun j => ⟨fun hl => ?_, (hg.2 j).2⟩⟩
  have hk := (hg.2 j).1 hl
  refine ⟨fun e' he o ho => ?_, fun hw => ?_, fun hb => ?_⟩
  · rcases List.mem_append.1 he with h5 | h5
    · exact hk.told e' h5 o ho
    · rw [List.mem_singleton] at h5; subst h5
      exact h1 j o ho hl
  · rw [run_snoc] at hw
    cases Classical.em (e = .notReady j) with
    | inl h5 => exact h2 j h5 hl
    | inr h5 =>
      apply hk.waits
      have hs := step_sim hg.1.inv hg.1.ub h3
      cases e <;> simp only at hs <;> rw [hs.waiting] at hw
      case ready i o d => rw [(record_frame ..).1] at hw; grind
      case thrown i x d => rw [(recordThrown_frame ..).1] at hw; grind
      case fin i o => rw [(record_frame ..).1] at hw; grind
      case notReady i => grind
      case txn i => grind
      all_goals exact hw
  · rw [run_snoc]
    exact step_idle hg.1.inv hg.1.ub h3 j (hk.later hb)

theorem put_eq {t u : Tree} {j : Nat} {n : Next} (h : t.put j n = .ok u) : ∃ c es kids v, t = node c es kids ∧ n = .ok v ∧
    u = node c es (upd kids j v) := by
  cases t with
  | leaf => cases n <;> simp [put] at h
  | node c es kids =>
    cases n with
    | no => simp [put] at h
    | ub => simp [put] at h
    | ok v => simp only [put, Next.ok.injEq] at h; exact ⟨c, es, kids, v, rfl, rfl, h.symm⟩

theorem put_grows {t u : Tree} {j : Nat} {n : Next} (h : t.put j n = .ok u) : Grows t u ∧ u.begun = t.begun := by
  obtain ⟨c, es, kids, v, rfl, rfl, rfl⟩ := put_eq h
  exact ⟨⟨rfl, fun h => ⟨h, fun _ h => h⟩, fun h => h⟩, rfl⟩

theorem put_good {c : Cfg} {es : List Ev} {kids : Nat → Tree} {j : Nat} {v : Tree} (hg : (node c es kids).Good)
    (hv : v.Good) (h : Grows (kids j) v) (hb : v.begun = true → (kids j).isLeaf = false → (St.run c es).child j ≠ .idle) :
    (node c es (upd kids j v)).Good := by
  refine ⟨hg.1, fun i => ?_⟩
  by_cases hi : i = j
  · subst hi
    simp only [upd_apply, if_true]
    refine ⟨fun hl => ?_, hv⟩
    rw [h.leaf] at hl
    have hk := (hg.2 i).1 hl
    refine ⟨fun e he o ho => ?_, fun hw => h.begun (hk.waits hw), fun h => hb h hl⟩
    obtain ⟨h1, h2⟩ := hk.told e he o ho
    exact ⟨(h.over h1).1, (h.over h1).2 o h2⟩
  · simp only [upd_apply, if_neg hi]; exact hg.2 i

theorem feed_begun {t u : Tree} {e : Ev} (hg : t.Good) (h : t.feed e = .ok u) (he : e ≠ .begin) : t.begun = true := by
  obtain ⟨c, es, kids, rfl, rfl, h3, h4⟩ := feed_eq h
  cases es with
  | nil => exact absurd (before_can (Inv.init c) rfl h3) he
  | cons => rfl

theorem kid_good {t : Tree} (hg : t.Good) (j : Nat) : (t.kid j).Good := by
  cases t with
  | leaf => trivial
  | node => exact (hg.2 j).2

theorem act_good {t u : Tree} {a : Doing} (hg : t.Good) (h : t.act a = .ok u) :
    u.Good ∧ Grows t u ∧ u.begun = t.begun := by
  have fed : ∀ e, e ≠ .begin → t.feed e = .ok u → Grows t u ∧ u.begun = t.begun := by
    intro e he hf
    have h1 := feed_grows hg hf
    have h2 := feed_begun hg hf he
    exact ⟨h1, by rw [h2, h1.begun h2]⟩
  cases a with
  | ev e =>
    have : e ≠ .begin ∧ (e.of.all fun i => (t.kid i).isLeaf) = true ∧ t.feed e = .ok u := by
      cases e <;> simp only [act] at h
      case begin => cases h
      case cancel => cases h
      case interrupt => cases h
      all_goals
        split at h
        · exact ⟨by simp, by assumption, h⟩
        · cases h
    obtain ⟨h1, h2, h3⟩ := this
    refine ⟨feed_good hg h3 ?_ ?_, fed e h1 h3⟩
    · intro j o ho hl
      cases e <;> simp_all [Ev.ends, Ev.of, Option.all]
    · rintro j rfl hl
      simp_all [Ev.of, Option.all]
  | begin j =>
    simp only [act] at h
    split at h
    · rename_i htop
      obtain ⟨c, es, kids, v, rfl, h1, rfl⟩ := put_eq h
      simp only [kid] at h1
      refine ⟨put_good hg (feed_good (hg.2 j).2 h1 (by simp [Ev.ends]) (by simp)) (feed_grows (hg.2 j).2 h1) ?_, put_grows h⟩
      intro _ _ hid
      simp only [top] at htop
      have := (hg.1.inv.asking j).2 (by rw [tags_of_head htop]; simp [Frame.tag])
      rw [hid] at this; cases this
    · cases h
  | ready j o d =>
    simp only [act] at h
    split at h
    · rename_i hk
      refine ⟨feed_good hg h ?_ (by simp), fed _ (by simp) h⟩
      intro i o' ho _
      simp only [Ev.ends, Option.some.injEq, Prod.mk.injEq] at ho
      obtain ⟨rfl, rfl⟩ := ho
      exact hk
    · cases h
  | notReady j =>
    simp only [act] at h
    split at h
    · rename_i hk
      refine ⟨feed_good hg h (by simp [Ev.ends]) ?_, fed _ (by simp) h⟩
      intro i hi _
      simp only [Ev.notReady.injEq] at hi
      rw [← hi]; exact hk
    · cases h
  | fin j o =>
    simp only [act] at h
    split at h
    · rename_i hk
      refine ⟨feed_good hg h ?_ (by simp), fed _ (by simp) h⟩
      intro i o' ho _
      simp only [Ev.ends, Option.some.injEq, Prod.mk.injEq] at ho
      obtain ⟨rfl, rfl⟩ := ho
      exact hk
    · cases h
  | emit j =>
    simp only [act] at h
    split at h
    · split at h
      · obtain ⟨c, es, kids, v, rfl, h1, rfl⟩ := put_eq h
        simp only [kid] at h1
        refine ⟨put_good hg (feed_good (hg.2 j).2 h1 (by simp [Ev.ends]) (by simp)) (feed_grows (hg.2 j).2 h1) ?_, put_grows h⟩
        intro _ hl
        exact ((hg.2 j).1 hl).later (feed_begun (hg.2 j).2 h1 (by simp))
      · cases h
    · cases h
  | intr j =>
    simp only [act] at h
    split at h
    · split at h
      · obtain ⟨c, es, kids, v, rfl, h1, rfl⟩ := put_eq h
        simp only [kid] at h1
        refine ⟨put_good hg (feed_good (hg.2 j).2 h1 (by simp [Ev.ends]) (by simp)) (feed_grows (hg.2 j).2 h1) ?_, put_grows h⟩
        intro _ hl
        exact ((hg.2 j).1 hl).later (feed_begun (hg.2 j).2 h1 (by simp))
      · cases h
    · cases h

theorem inside_good : ∀ (p : List Nat) {t u : Tree} {a : Doing}, t.Good → t.inside p a = .ok u →
    u.Good ∧ Grows t u ∧ u.begun = t.begun
  | [], t, u, a, hg, h => act_good hg (by simpa [inside] using h)
  | j :: p, leaf, u, a, hg, h => by simp [inside] at h
  | j :: p, node c es kids, u, a, hg, h => by
    simp only [inside] at h
    refine ⟨?_, put_grows h⟩
    obtain ⟨c', es', kids', v, h0, h1, rfl⟩ := put_eq h
    cases h0
    obtain ⟨h2, h3, h4⟩ := inside_good p (hg.2 j).2 h1
    exact put_good hg h2 h3 fun hb hl => ((hg.2 j).1 hl).later (by rw [← h4]; exact hb)

theorem move_good {t u : Tree} {m : Mv} (hg : t.Good) (h : t.move m = .ok u) : u.Good := by
  cases m with
  | inside p a => exact (inside_good p hg h).1
  | begin => exact feed_good hg h (by simp [Ev.ends]) (by simp)
  | cancel ct => exact feed_good hg h (by simp [Ev.ends]) (by simp)
  | interrupt => exact feed_good hg h (by simp [Ev.ends]) (by simp)

theorem moves_good : ∀ (ms : List Mv) {t u : Tree}, t.Good → t.moves ms = .ok u → u.Good
  | [], t, u, hg, h => by simp only [moves, Next.ok.injEq] at h; exact h ▸ hg
  | m :: ms, t, u, hg, h => by
    simp only [moves] at h
    split at h
    · cases h
    · cases h
    · rename_i v hv; exact moves_good ms (move_good hg hv) h

/-- Over, or not yet begun. -/
def rests (t : Tree) : Prop := t.over ∨ t.begun = false

theorem ends_of_outcome {es : List Ev} {i : Nat} {o : Out} (h : outcome es i = some o) :
    ∃ e ∈ es, e.ends = some (i, o) := by
  unfold outcome at h
  obtain ⟨p, h1, h2⟩ := List.exists_of_findSome?_eq_some h
  obtain ⟨e, h3, h4⟩ := List.mem_filterMap.1 h1
  refine ⟨e, h3, ?_⟩
  rw [h4]
  split at h2
  · rename_i h5; simp only [Option.some.injEq] at h2; rw [← h5, ← h2]
  · cases h2

theorem rests_node {c : Cfg} {es : List Ev} {kids : Nat → Tree} (hg : (node c es kids).Good)
    (h : (node c es kids).rests) : (∀ i, ((St.run c es).child i).active = false) ∧
    ∀ i, (kids i).isLeaf = false → (kids i).rests := by
  have hact : ∀ i, ((St.run c es).child i).active = false := by
    rcases h with h | h
    · exact (C13_resume_once hg.1.ok hg.1.legal hg.1.ub).2.2.2 h
    · cases es with
      | nil => intro i; rfl
      | cons => simp [begun] at h
  refine ⟨hact, fun i hl => ?_⟩
  have hk := (hg.2 i).1 hl
  cases hb : (kids i).begun
  · exact Or.inr hb
  · left
    have h1 := hk.later hb
    have h2 := (All.run hg.1.ok hg.1.legal hg.1.ub).hist.ended i
    have h3 := hact i
    cases ho : outcome es i with
    | some o =>
      obtain ⟨e, h4, h5⟩ := ends_of_outcome ho
      exact (hk.told e h4 o h5).1
    | none =>
      rw [ho] at h2
      cases hc : (St.run c es).child i <;> simp_all [CS.active, CS.ended]

theorem at_rests : ∀ (p : List Nat) {t : Tree}, t.Good → t.rests → (t.at' p).isLeaf = false → (t.at' p).rests
  | [], t, _, h, _ => by cases t <;> exact h
  | _ :: _, leaf, _, h, hl => by simp [at', isLeaf] at hl
  | j :: p, node c es kids, hg, h, hl => by
    simp only [at'] at hl ⊢
    have hj : (kids j).isLeaf = false := by
      cases hk : kids j with
      | leaf => rw [hk] at hl; cases p <;> simp [at', isLeaf] at hl
      | node => rfl
    exact at_rests p (hg.2 j).2 ((rests_node hg h).2 j hj) hl

theorem at_leaf : ∀ (p : List Nat), (leaf.at' p) = leaf
  | [] => rfl
  | _ :: _ => rfl

/-- Nothing is forwarded after the end. -/
def Sound : Tree → Prop
  | leaf => True
  | node c es kids => c.n ≠ 0 ∧ Safe (St.run c es) ∧ ∀ j, (kids j).Sound

theorem fresh_sound : ∀ t : Tree, t.Fresh → t.Sound
  | leaf, _ => trivial
  | node c es kids, h => by
    obtain ⟨-, h1, rfl, h3⟩ := h
    exact ⟨h1, ⟨rfl, trivial, by simp [St.tags, St.run, St.steps]⟩, fun j => fresh_sound _ (h3 j)⟩

theorem outside_iff {c : Cfg} {es : List Ev} {kids : Nat → Tree} :
    (node c es kids).outside = true ↔ Tag.co .ext ∈ (St.run c es).tags := by
  simp only [outside, St.tags, List.mem_map, List.any_eq_true]
  constructor
  · rintro ⟨f, h1, h2⟩
    refine ⟨f, h1, ?_⟩
    split at h2 <;> first | rfl | cases h2
  · rintro ⟨f, h1, h2⟩
    refine ⟨f, h1, ?_⟩
    cases f <;> simp [Frame.tag] at h2 <;> subst h2 <;> rfl

theorem feed_sound {t : Tree} {e : Ev} (hg : t.Good) (hs : t.Sound)
    (hp : ∀ i o, e = .fin i o → t.outside = false) : t.feed e ≠ .ub ∧ ∀ u, t.feed e = .ok u → u.Sound := by
  cases t with
  | leaf => simp [feed]
  | node c es kids =>
    have hn : c.order ≠ [] := by
      intro h0
      have := (hg.1.ok.mem 0).2 (Nat.pos_of_ne_zero hs.1)
      rw [h0] at this; simp at this
    have h1 := hs.2.1.step hn hg.1.inv (e := e) fun i o he => by
      rw [← outside_iff (kids := kids), hp i o he]; simp
    refine ⟨?_, fun u hu => ?_⟩
    · simp only [feed]
      split
      · rw [if_neg (by simp [h1.ub])]; simp
      · simp
    · obtain ⟨c', es', kids', h2, rfl, -, -⟩ := feed_eq hu
      cases h2
      exact ⟨hs.1, by rw [run_snoc]; exact h1, hs.2.2⟩

theorem put_sound {t : Tree} {j : Nat} {n : Next} (hs : t.Sound) (h1 : n ≠ .ub) (h2 : ∀ u, n = .ok u → u.Sound) :
    t.put j n ≠ .ub ∧ ∀ u, t.put j n = .ok u → u.Sound := by
  cases t with
  | leaf => cases n <;> simp [put]
  | node c es kids =>
    cases n with
    | no => simp [put]
    | ub => exact absurd rfl h1
    | ok v =>
      simp only [put, ne_eq, reduceCtorEq, not_false_eq_true, Next.ok.injEq, true_and]
      rintro u rfl
      refine ⟨hs.1, hs.2.1, fun i => ?_⟩
      by_cases hi : i = j
      · subst hi; simpa using h2 v rfl
      · simpa [hi] using hs.2.2 i

theorem kid_sound {t : Tree} (hg : t.Sound) (j : Nat) : (t.kid j).Sound := by
  cases t with
  | leaf => trivial
  | node => exact hg.2.2 j

theorem act_sound {t : Tree} {a : Doing} (hg : t.Good) (hs : t.Sound)
    (hp : ∀ p, (Mv.inside [] a).ends = some p → t.outside = false) : t.act a ≠ .ub ∧ ∀ u, t.act a = .ok u → u.Sound := by
  have no : (Next.no ≠ .ub ∧ ∀ u, Next.no = .ok u → u.Sound) := by simp
  cases a with
  | ev e =>
    have h1 := feed_sound (e := e) hg hs (by rintro i o rfl; exact hp [] rfl)
    cases e <;> simp only [act] <;> first
      | exact no
      | (split <;> first | exact h1 | exact no)
  | begin j =>
    simp only [act]
    have h1 := feed_sound (e := .begin) (kid_good hg j) (kid_sound hs j) (by simp)
    split
    · exact put_sound hs h1.1 h1.2
    · exact no
  | ready j o d =>
    simp only [act]
    have h1 := feed_sound (e := .ready j o d) hg hs (by simp)
    split <;> first | exact h1 | exact no
  | notReady j =>
    simp only [act]
    have h1 := feed_sound (e := .notReady j) hg hs (by simp)
    split <;> first | exact h1 | exact no
  | fin j o =>
    simp only [act]
    have h1 := feed_sound (e := .fin j o) hg hs (fun _ _ _ => hp [] rfl)
    split <;> first | exact h1 | exact no
  | emit j =>
    simp only [act]
    split
    · split
      · rename_i ct _ _ _
        rename_i a b
        have h1 := fun ct => feed_sound (e := .cancel ct) (kid_good hg j) (kid_sound hs j) (by simp)
        exact put_sound hs (h1 _).1 (h1 _).2
      · exact no
    · exact no
  | intr j =>
    simp only [act]
    have h1 := feed_sound (e := .interrupt) (kid_good hg j) (kid_sound hs j) (by simp)
    split
    · split
      · exact put_sound hs h1.1 h1.2
      · exact no
    · exact no

theorem inside_sound : ∀ (p : List Nat) {t : Tree} {a : Doing}, t.Good → t.Sound →
    (∀ q, (Mv.inside p a).ends = some q → (t.at' q).outside = false) →
    t.inside p a ≠ .ub ∧ ∀ u, t.inside p a = .ok u → u.Sound
  | [], t, a, hg, hs, hp => by
    have : t.inside [] a = t.act a := by cases t <;> rfl
    rw [this]
    refine act_sound hg hs fun p h => ?_
    have h0 : p = [] := by
      unfold Mv.ends at h
      split at h <;> simp_all
    have := hp p h
    rw [h0] at this
    cases t <;> exact this
  | j :: p, leaf, a, hg, hs, hp => by simp [inside]
  | j :: p, node c es kids, a, hg, hs, hp => by
    simp only [inside]
    have h1 := inside_sound p (t := kids j) (a := a) (hg.2 j).2 (hs.2.2 j) (by
      intro q hq
      have : (Mv.inside (j :: p) a).ends = some (j :: q) := by
        unfold Mv.ends at hq ⊢
        split at hq <;> simp_all
      have h := hp (j :: q) this
      simpa [at'] using h)
    exact put_sound hs h1.1 h1.2

theorem moves_sound : ∀ (ms : List Mv) {t : Tree}, t.Good → t.Sound → t.Posted ms = true → t.moves ms ≠ .ub
  | [], t, _, _, _ => by simp [moves]
  | m :: ms, t, hg, hs, hp => by
    simp only [Posted, Bool.and_eq_true] at hp
    have h1 : t.move m ≠ .ub ∧ ∀ u, t.move m = .ok u → u.Sound := by
      cases m with
      | inside p a =>
        refine inside_sound p hg hs fun q hq => ?_
        have := hp.1
        rw [hq] at this; simpa using this
      | begin => exact feed_sound hg hs (by simp)
      | cancel ct => exact feed_sound hg hs (by simp)
      | interrupt => exact feed_sound hg hs (by simp)
    simp only [moves]
    split
    · simp
    · rename_i h; exact absurd h h1.1
    · rename_i u h
      have := hp.2
      rw [h] at this
      exact moves_sound ms (move_good hg h) (h1.2 u h) this

theorem gives_thrown {c : Cfg} {es : List Ev} {kids : Nat → Tree} {x : Nat}
    (h : (node c es kids).gives (.err x) = true) : (St.run c es).resume c = .thrown x := by
  simp only [gives] at h
  cases hr : (St.run c es).resume c <;> rw [hr] at h <;> simp_all

theorem resume_thrown {c : Cfg} {s : St} {x : Nat} (h : s.resume c = .thrown x) :
    s.err = some x ∧ c.kind ≠ .gather := by
  unfold St.resume at h
  cases hk : c.kind <;> simp only [hk] at h
  · split at h <;> cases h
  · cases he : s.err with
    | none => rw [he] at h; dsimp only at h; split at h <;> cases h
    | some y => rw [he] at h; simp_all
  · cases he : s.err with
    | none =>
      rw [he] at h; dsimp only at h
      split at h
      · split at h <;> cases h
      · split at h <;> cases h
    | some y => rw [he] at h; simp_all

theorem at_good : ∀ (p : List Nat) {t : Tree}, t.Good → (t.at' p).Good
  | [], t, h => by cases t <;> exact h
  | _ :: _, leaf, _ => trivial
  | j :: p, node c es kids, h => at_good p (h.2 j).2

end Tree

open Tree

/-- The kinds of a tree never change. -/
def Kinds (k : Kind) : Tree → Prop
  | leaf => True
  | node c _ kids => c.kind = k ∧ ∀ j, Kinds k (kids j)

theorem Kinds.at {k : Kind} : ∀ (p : List Nat) {t : Tree}, Kinds k t → Kinds k (t.at' p)
  | [], t, h => by cases t <;> exact h
  | _ :: _, leaf, _ => trivial
  | j :: p, node _ _ _, h => Kinds.at p (h.2 j)

theorem Kinds.put {k : Kind} {t u : Tree} {j : Nat} {n : Next} (h : Kinds k t) (hn : ∀ v, n = .ok v → Kinds k v)
    (hp : t.put j n = .ok u) : Kinds k u := by
  obtain ⟨c, es, kids, v, rfl, rfl, rfl⟩ := put_eq hp
  refine ⟨h.1, fun i => ?_⟩
  by_cases hi : i = j
  · subst hi; simpa using hn v rfl
  · simpa [hi] using h.2 i

theorem Kinds.feed {k : Kind} {t u : Tree} {e : Ev} (h : Kinds k t) (hf : t.feed e = .ok u) : Kinds k u := by
  obtain ⟨c, es, kids, rfl, rfl, -, -⟩ := feed_eq hf
  exact h

theorem Kinds.kid {k : Kind} {t : Tree} (h : Kinds k t) (j : Nat) : Kinds k (t.kid j) := by
  cases t with
  | leaf => trivial
  | node => exact h.2 j

theorem Kinds.act {k : Kind} {t u : Tree} {a : Doing} (h : Kinds k t) (hf : t.act a = .ok u) : Kinds k u := by
  cases a with
  | ev e =>
    cases e <;> simp only [Tree.act] at hf <;> first
      | cases hf
      | (split at hf <;> first | exact h.feed hf | cases hf)
  | begin j =>
    simp only [Tree.act] at hf
    split at hf
    · exact h.put (fun v hv => (h.kid j).feed hv) hf
    · cases hf
  | ready j o d => simp only [Tree.act] at hf; split at hf <;> first | exact h.feed hf | cases hf
  | notReady j => simp only [Tree.act] at hf; split at hf <;> first | exact h.feed hf | cases hf
  | fin j o => simp only [Tree.act] at hf; split at hf <;> first | exact h.feed hf | cases hf
  | emit j =>
    simp only [Tree.act] at hf
    split at hf
    · split at hf
      · exact h.put (fun v hv => (h.kid j).feed hv) hf
      · cases hf
    · cases hf
  | intr j =>
    simp only [Tree.act] at hf
    split at hf
    · split at hf
      · exact h.put (fun v hv => (h.kid j).feed hv) hf
      · cases hf
    · cases hf

theorem Kinds.inside {k : Kind} : ∀ (p : List Nat) {t u : Tree} {a : Doing}, Kinds k t → t.inside p a = .ok u → Kinds k u
  | [], t, u, a, h, hf => h.act (by simpa [Tree.inside] using hf)
  | j :: p, leaf, u, a, h, hf => by simp [Tree.inside] at hf
  | j :: p, node c es kids, u, a, h, hf => by
    simp only [Tree.inside] at hf
    exact h.put (fun v hv => Kinds.inside p (h.2 j) hv) hf

theorem Kinds.moves {k : Kind} : ∀ (ms : List Mv) {t u : Tree}, Kinds k t → t.moves ms = .ok u → Kinds k u
  | [], t, u, h, hf => by simp only [Tree.moves, Next.ok.injEq] at hf; exact hf ▸ h
  | m :: ms, t, u, h, hf => by
    simp only [Tree.moves] at hf
    split at hf
    · cases hf
    · cases hf
    · rename_i v hv
      refine Kinds.moves ms ?_ hf
      cases m with
      | inside p a => exact Kinds.inside p h hv
      | begin => exact h.feed hv
      | cancel ct => exact h.feed hv
      | interrupt => exact h.feed hv

end Cobalt.Comb
