import Verif.BufVal.Spec
import Verif.Io.BufferLemmas
/-!
# Lemmas for `BufVal/Props.lean`
-/
namespace Cobalt.BufVal

open Io (Buf skipIdx)

theorem steps_append (s : St) (a b : List Ev) : s.steps (a ++ b) = (s.steps a).steps b := by
  induction a generalizing s with
  | nil => rfl
  | cons e a ih => exact ih _

theorem step_ub {s : St} (h : s.ub = true) (e : Ev) : s.step e = s := by simp [St.step, St.act, h]

theorem step_eq {s : St} (h : s.ub = false) (e : Ev) : s.step e = s.act e := by simp [St.step, h]

theorem steps_ub {s : St} (h : s.ub = true) (es : List Ev) : s.steps es = s := by
  induction es with
  | nil => rfl
  | cons e es ih => rw [St.steps, step_ub h, ih]

theorem look_none (s : St) (t : Span) : s.look t = none ↔ t.len ≠ 0 ∧ (s.arrs[t.arr]?).join = none := by
  unfold St.look
  split <;> simp_all

theorem there_iff (s : St) (q : Sq) : There s q ↔ s.look q.tail ≠ none := by
  rw [Ne, look_none]
  unfold There
  by_cases h : q.tail.len = 0 <;> simp [h]

/-- An event is undefined if and only if it reads the wrong member, or an array that is gone. -/
theorem step_ub_iff {s : St} (h : s.ub = false) (e : Ev) : (s.step e).ub = false ↔ Active s e ∧ Reads s e := by
  cases e with
  | array _ => simp [St.step, St.act, h, Active, Reads]
  | gone _ => simp [St.step, St.act, h, Active, Reads]
  | put _ _ _ => simp [St.step, St.act, h, Active, Reads]
  | reg _ _ _ => simp [St.step, St.act, h, Active, Reads]
  | plain _ _ => simp [St.step, St.act, h, Active, Reads]
  | span v a =>
    simp only [St.step, St.act, h, Bool.false_eq_true, if_false, Active, Reads, and_true, iff_true]
    split <;> simp [h]
  | copy v w =>
    simp only [St.step, St.act, h, Bool.false_eq_true, if_false, Active, Reads, and_true, Cfg.regOk]
    cases s.cfg.uring <;> cases s.cfg.strict <;> cases (s.v w).plain <;> simp [St.fail, h]
  | adv v n =>
    simp only [St.step, St.act, h, Bool.false_eq_true, if_false, Active, Reads, there_iff, St.advance, Cfg.headOk]
    by_cases hn : n < (s.v v).head.size
    · have : ¬ (s.v v).head.size ≤ n := by omega
      cases s.cfg.uring <;> cases s.cfg.strict <;> cases (s.v v).plain <;> simp [St.fail, h, hn, this]
    · have : (s.v v).head.size ≤ n := by omega
      cases hl : s.look (s.v v).tail <;> cases s.cfg.uring <;> cases s.cfg.strict <;> cases (s.v v).plain <;>
        simp [St.fail, h, hn, this]
  | use v =>
    simp only [St.step, St.act, h, Bool.false_eq_true, if_false, Active, Reads, there_iff, St.visit, Cfg.headOk, Cfg.regOk,
      Cfg.isReg]
    by_cases hn : (s.v v).tail.len = 0
    · have : s.look (s.v v).tail ≠ none := fun hx => ((look_none _ _).1 hx).1 hn
      by_cases hi : (s.v v).id = 0 <;> cases s.cfg.uring <;> cases s.cfg.strict <;> cases (s.v v).plain <;>
        simp [St.fail, h, hn, this, hi]
    · cases hl : s.look (s.v v).tail <;> cases s.cfg.uring <;> cases s.cfg.strict <;> cases (s.v v).plain <;>
        simp [St.fail, h, hn]

theorem steps_ub_iff (es : List Ev) : ∀ {s : St}, s.ub = false →
    ((s.steps es).ub = false ↔ All Active s es ∧ All Reads s es) := by
  induction es with
  | nil => exact fun h => by simp [St.steps, All, h]
  | cons e es ih =>
    intro s h
    simp only [St.steps, All]
    by_cases hx : (s.step e).ub = false
    · rw [ih hx]
      have := (step_ub_iff h e).1 hx
      grind
    · have hu : (s.step e).ub = true := by simpa using hx
      rw [steps_ub hu]
      rw [step_ub_iff h e] at hx
      simp only [hu, Bool.true_eq_false, false_iff]
      grind

/-- The state and what it means. -/
structure Rel (s : St) (p : Spec) : Prop where
  uring : s.cfg.uring = p.uring
  arrs : s.arrs = p.arrs
  id : ∀ v, (p.v v).id = (s.v v).id
  multi : ∀ v, (s.v v).tail.len ≠ 0 → (s.v v).id = 0
  off : s.cfg.uring = false → ∀ v, (s.v v).id = 0
  bnd : ∀ v bs, (s.v v).tail.len ≠ 0 → (s.arrs[(s.v v).tail.arr]?).join = some bs →
    (s.v v).tail.off + (s.v v).tail.len ≤ bs.length
  old : ∀ v, (s.v v).tail.len ≠ 0 → (s.v v).tail.arr < s.arrs.length
  bytes : ∀ v tl, s.look (s.v v).tail = some tl → (p.v v).bytes = cells ((s.v v).head :: tl)
  log : given s = p.log

theorem Rel.init (c : Cfg) : Rel (St.init c) { uring := c.uring } := by
  constructor <;> simp [St.init, St.look, cells, Buf.cells, given]

theorem cells_cons (b : Buf) (bs : List Buf) : cells (b :: bs) = b.cells ++ cells bs := by simp [cells]

/-- The buffers of a sequence after `+=`. -/
theorem adv_head {q : Sq} {n : Nat} (h : n < q.head.size) (tl : List Buf) :
    cells ((q.adv [] n).head :: tl) = (cells (q.head :: tl)).drop n := by
  simp only [Sq.adv, h, if_true, cells_cons, Io.Buf.cells_advance]
  rw [List.drop_append_of_le_length (by simp; omega)]

theorem look_len {s : St} {t : Span} {tl : List Buf} (h : s.look t = some tl)
    (hb : ∀ bs, t.len ≠ 0 → (s.arrs[t.arr]?).join = some bs → t.off + t.len ≤ bs.length) : tl.length = t.len := by
  unfold St.look at h
  split at h
  · next h0 => simp at h; simp [← h, h0]
  · next h0 =>
    rw [Option.map_eq_some_iff] at h
    obtain ⟨bs, h1, rfl⟩ := h
    have := hb bs h0 h1
    simp; omega

/-- What lies behind the first buffers of a span. -/
theorem look_drop {s : St} {t : Span} {tl : List Buf} (h : s.look t = some tl) (hl : tl.length = t.len) (m : Nat)
    (hm : m ≤ t.len) (h0 : t.len ≠ 0) : s.look ⟨t.arr, t.off + m, t.len - m⟩ = some (tl.drop m) := by
  unfold St.look at h ⊢
  rw [if_neg h0] at h
  rw [Option.map_eq_some_iff] at h
  obtain ⟨bs, h1, rfl⟩ := h
  dsimp only
  split
  · rw [List.drop_eq_nil_of_le (by omega)]
  · rw [h1]
    simp [List.drop_take, List.drop_drop]

/-- The buffers after `+=`. -/
theorem adv_tail {s : St} {q : Sq} {n : Nat} {tl : List Buf} (h : ¬ n < q.head.size) (hl : s.look q.tail = some tl)
    (hb : ∀ bs, q.tail.len ≠ 0 → (s.arrs[q.tail.arr]?).join = some bs → q.tail.off + q.tail.len ≤ bs.length) :
    ∃ tl', s.look (q.adv tl n).tail = some tl' ∧ cells ((q.adv tl n).head :: tl') = (cells (q.head :: tl)).drop n := by
  have hlen := look_len hl hb
  have hdrop : (cells (q.head :: tl)).drop n = (cells tl).drop (n - q.head.size) := by
    rw [cells_cons, List.drop_append, List.drop_eq_nil_of_le (by simp; omega)]
    simp
  have hsp : (cells tl).drop (n - q.head.size) = _ := Io.skipIdx_spec tl (n - q.head.size)
  rw [hdrop, hsp]
  have hle := Io.skipIdx_le tl (n - q.head.size)
  simp only [Sq.adv, h, if_false]
  generalize skipIdx tl (n - q.head.size) = r at *
  by_cases hr : r.1 = tl.length
  · simp only [hr, if_true]
    exact ⟨[], by simp [St.look], by simp [cells, Buf.cells]⟩
  · simp only [hr, if_false]
    have hlt : r.1 < tl.length := by omega
    refine ⟨tl.drop (r.1 + 1), look_drop hl hlen _ (by omega) (by omega), ?_⟩
    rw [cells_cons]
    simp [List.getElem?_eq_getElem hlt, cells, List.getD_eq_getElem?_getD]

theorem adv_props (q : Sq) (tl : List Buf) (n : Nat) : (q.adv tl n).id = q.id ∧
    ((q.adv tl n).tail = q.tail ∨ (q.adv tl n).tail = {} ∨ ∃ m, m ≤ tl.length ∧
      (q.adv tl n).tail = ⟨q.tail.arr, q.tail.off + m, q.tail.len - m⟩) := by
  unfold Sq.adv
  split
  · exact ⟨rfl, Or.inl rfl⟩
  · have hle := Io.skipIdx_le tl (n - q.head.size)
    dsimp only
    split
    · exact ⟨rfl, Or.inr (Or.inl rfl)⟩
    · exact ⟨rfl, Or.inr (Or.inr ⟨_, by omega, rfl⟩)⟩

/-- One sequence gets a value. -/
theorem Rel.set {s : St} {p : Spec} (h : Rel s p) (v : Nat) (q : Sq) (x : Val) (hid : x.id = q.id)
    (hm : q.tail.len ≠ 0 → q.id = 0) (ho : s.cfg.uring = false → q.id = 0)
    (hb : ∀ bs, q.tail.len ≠ 0 → (s.arrs[q.tail.arr]?).join = some bs → q.tail.off + q.tail.len ≤ bs.length)
    (hold : q.tail.len ≠ 0 → q.tail.arr < s.arrs.length)
    (hx : ∀ tl, s.look q.tail = some tl → x.bytes = cells (q.head :: tl)) :
    Rel { s with v := upd s.v v q } { p with v := upd p.v v x } := by
  refine ⟨h.uring, h.arrs, ?_, ?_, ?_, ?_, ?_, ?_, h.log⟩
  · intro w; dsimp only [upd_apply]; split
    · exact hid
    · exact h.id w
  · intro w; dsimp only [upd_apply]; split
    · exact hm
    · exact h.multi w
  · intro hu w; dsimp only [upd_apply]; split
    · exact ho hu
    · exact h.off hu w
  · intro w; dsimp only [upd_apply]; split
    · exact hb
    · exact h.bnd w
  · intro w; dsimp only [upd_apply]; split
    · exact hold
    · exact h.old w
  · intro w; dsimp only [upd_apply]; split
    · exact hx
    · exact h.bytes w

/-- The arrays change; what the sequences see does not. -/
theorem Rel.arr {s : St} {p : Spec} (h : Rel s p) (as : List (Option (List Buf))) (hlen : s.arrs.length ≤ as.length)
    (hs : ∀ v bs, (s.v v).tail.len ≠ 0 → (as[(s.v v).tail.arr]?).join = some bs →
      ∃ bs', (s.arrs[(s.v v).tail.arr]?).join = some bs' ∧ bs.length = bs'.length ∧
        (bs.drop (s.v v).tail.off).take (s.v v).tail.len = (bs'.drop (s.v v).tail.off).take (s.v v).tail.len) :
    Rel { s with arrs := as } { p with arrs := as } := by
  refine ⟨h.uring, rfl, h.id, h.multi, h.off, ?_, ?_, ?_, h.log⟩
  · intro v bs h0 hb
    obtain ⟨bs', h1, h2, _⟩ := hs v bs h0 hb
    have := h.bnd v bs' h0 h1
    dsimp only
    omega
  · intro v h0
    exact Nat.lt_of_lt_of_le (h.old v h0) hlen
  · intro v tl hl
    refine h.bytes v tl ?_
    unfold St.look at hl ⊢
    dsimp only at hl
    split
    · next h0 => rwa [if_pos h0] at hl
    · next h0 =>
      rw [if_neg h0, Option.map_eq_some_iff] at hl
      obtain ⟨bs, h1, rfl⟩ := hl
      obtain ⟨bs', h2, _, h3⟩ := hs v bs h0 h1
      rw [h2, Option.map_some, h3]

theorem Rel.step {s : St} {p : Spec} (h : Rel s p) (hu : s.ub = false) (e : Ev) (hk : Still s e)
    (hu' : (s.step e).ub = false) : Rel (s.step e) (p.step e) := by
  have hf := (step_ub_iff hu e).1 hu'
  cases e with
  | array bs =>
    rw [step_eq hu]
    dsimp only [St.act, Spec.step]
    rw [← h.arrs]
    refine h.arr _ (by simp) fun v b h0 hb => ?_
    rw [List.getElem?_append_left (h.old v h0)] at hb
    exact ⟨b, hb, rfl, rfl⟩
  | gone a =>
    rw [step_eq hu]
    dsimp only [St.act, Spec.step]
    rw [← h.arrs]
    refine h.arr _ (by simp) fun v b h0 hb => ?_
    rw [List.getElem?_set] at hb
    split at hb
    · split at hb <;> simp at hb
    · exact ⟨b, hb, rfl, rfl⟩
  | put a i b =>
    rw [step_eq hu]
    dsimp only [St.act, Spec.step]
    rw [← h.arrs]
    refine h.arr _ (by simp) fun v bs h0 hb => ?_
    rw [List.getElem?_modify] at hb
    by_cases ha : a = (s.v v).tail.arr
    · simp only [ha, if_true] at hb
      cases hx : (s.arrs[(s.v v).tail.arr]?).join with
      | none =>
        rcases h1 : s.arrs[(s.v v).tail.arr]? with _ | _ | y <;> simp [h1] at hb hx
      | some y =>
        rcases h1 : s.arrs[(s.v v).tail.arr]? with _ | _ | z <;> simp [h1] at hb hx
        subst hx
        refine ⟨z, rfl, by simp [← hb], ?_⟩
        have hk := hk v ha.symm
        rw [← hb]
        apply List.ext_getElem?
        intro j
        simp only [List.getElem?_take, List.getElem?_drop, List.getElem?_set]
        split
        · rw [if_neg (by omega)]
        · rfl
    · simp only [ha, if_false] at hb
      exact ⟨bs, by simpa using hb, rfl, rfl⟩
  | reg v i b =>
    rw [step_eq hu]
    dsimp only [St.act, Spec.step]
    refine h.set v _ _ (by rw [h.uring]) (by simp) (fun h => by simp [h]) (by simp) (by simp) ?_
    intro tl hl
    simp [St.look] at hl
    simp [cells, hl]
  | plain v b =>
    rw [step_eq hu]
    dsimp only [St.act, Spec.step]
    refine h.set v _ _ rfl (by simp) (by simp) (by simp) (by simp) ?_
    intro tl hl
    simp [St.look] at hl
    simp [cells, hl]
  | span v a =>
    rw [step_eq hu]
    dsimp only [St.act, Spec.step]
    have he : p.arrs[a]? = s.arrs[a]? := by rw [h.arrs]
    cases ha : (s.arrs[a]?).join with
    | none => rw [he, ha]; exact h
    | some bs =>
      rw [he, ha]
      dsimp only
      have hal : a < s.arrs.length := by
        refine Classical.byContradiction fun hx => ?_
        rw [List.getElem?_eq_none (by omega)] at ha
        simp at ha
      cases bs with
      | nil =>
        refine h.set v (Sq.ofSpan a []) ⟨cells [], 0⟩ rfl (by simp [Sq.ofSpan]) (by simp [Sq.ofSpan]) (by simp [Sq.ofSpan]) (by simp [Sq.ofSpan]) ?_
        intro tl hl
        simp [St.look, Sq.ofSpan] at hl
        simp [cells, Sq.ofSpan, hl, Buf.cells]
      | cons b bs =>
        by_cases h0 : bs.length = 0
        · refine h.set v (Sq.ofSpan a (b :: bs)) ⟨cells (b :: bs), 0⟩ rfl (by simp [Sq.ofSpan]) (by simp [Sq.ofSpan]) (by simp [Sq.ofSpan, h0])
            (by simp [Sq.ofSpan, h0]) ?_
          intro tl hl
          have : bs = [] := List.length_eq_zero_iff.1 h0
          simp [St.look, Sq.ofSpan, h0] at hl
          simp [Sq.ofSpan, hl, this]
        · refine h.set v (Sq.ofSpan a (b :: bs)) ⟨cells (b :: bs), 0⟩ rfl (by simp [Sq.ofSpan]) (by simp [Sq.ofSpan]) ?_ (by simp [Sq.ofSpan, h0, hal]) ?_
          · simp only [Sq.ofSpan, h0, if_false]
            intro bs' _ hx
            rw [ha] at hx
            simp at hx
            simp [← hx]; omega
          · intro tl hl
            simp [St.look, Sq.ofSpan, h0, ha] at hl
            simp [Sq.ofSpan, hl]
  | copy v w =>
    rw [step_eq hu] at hu' ⊢
    dsimp only [St.act, Spec.step] at hu' ⊢
    have hr : s.cfg.regOk (s.v w) = true := by
      cases hx : s.cfg.regOk (s.v w) with
      | true => rfl
      | false => simp [hx, St.fail] at hu'
    simp only [hr, Bool.not_true, Bool.false_eq_true, if_false]
    have hd : (s.cfg.dup (s.v w)).head = (s.v w).head ∧ (s.cfg.dup (s.v w)).tail = (s.v w).tail ∧
        (s.cfg.dup (s.v w)).id = (s.v w).id := by unfold Cfg.dup; split <;> simp
    refine h.set v _ _ ?_ ?_ ?_ ?_ ?_ ?_
    · rw [hd.2.2, h.id]
    · rw [hd.2.1, hd.2.2]; exact h.multi w
    · rw [hd.2.2]; exact fun hx => h.off hx w
    · rw [hd.2.1]; exact h.bnd w
    · rw [hd.2.1]; exact h.old w
    · rw [hd.2.1, hd.1]; exact h.bytes w
  | adv v n =>
    rw [step_eq hu] at hu' ⊢
    dsimp only [St.act, Spec.step] at hu' ⊢
    unfold St.advance at hu' ⊢
    split at hu'
    · simp [St.fail] at hu'
    · next h1 =>
      rw [if_neg h1]
      split
      · next h2 =>
        have ht : ((s.v v).adv [] n).tail = (s.v v).tail := by simp [Sq.adv, h2]
        have hp := adv_props (s.v v) [] n
        refine h.set v _ _ ?_ ?_ ?_ ?_ ?_ ?_
        · rw [hp.1]; exact h.id v
        · rw [ht, hp.1]; exact h.multi v
        · rw [hp.1]; exact fun hx => h.off hx v
        · rw [ht]; exact h.bnd v
        · rw [ht]; exact h.old v
        · rw [ht]
          intro tl hl
          rw [adv_head h2, h.bytes v tl hl]
      · next h2 =>
        cases hl : s.look (s.v v).tail with
        | none => simp [hl, h2, St.fail] at hu'
        | some tl =>
          dsimp only
          have hp := adv_props (s.v v) tl n
          have hlen := look_len hl (h.bnd v)
          obtain ⟨tl', e1, e2⟩ := adv_tail h2 hl (h.bnd v)
          refine h.set v _ _ ?_ ?_ ?_ ?_ ?_ ?_
          · rw [hp.1]; exact h.id v
          · rw [hp.1]
            rcases hp.2 with e | e | ⟨m, _, e⟩ <;> rw [e]
            · exact h.multi v
            · exact fun hx => absurd rfl hx
            · dsimp only; exact fun hx => h.multi v (by omega)
          · rw [hp.1]; exact fun hx => h.off hx v
          · intro bs
            rcases hp.2 with e | e | ⟨m, _, e⟩ <;> rw [e]
            · exact h.bnd v bs
            · exact fun hx => absurd rfl hx
            · dsimp only
              intro hx hy
              have := h.bnd v bs (by omega) hy
              omega
          · rcases hp.2 with e | e | ⟨m, _, e⟩ <;> rw [e]
            · exact h.old v
            · exact fun hx => absurd rfl hx
            · dsimp only; exact fun hx => h.old v (by omega)
          · intro tl2 hl2
            rw [e1] at hl2
            cases hl2
            rw [e2, h.bytes v tl hl]
  | use v =>
    rw [step_eq hu] at hu' ⊢
    dsimp only [St.act, Spec.step] at hu' ⊢
    have key : ∀ bs i, (p.v v).bytes = cells bs → (p.v v).id = i →
        Rel { s with log := s.log ++ [(v, bs, i)] } { p with log := p.log ++ [(v, (p.v v).bytes, (p.v v).id)] } := by
      intro bs i e1 e2
      refine ⟨h.uring, h.arrs, h.id, h.multi, h.off, h.bnd, h.old, h.bytes, ?_⟩
      simp only [given, List.map_append, List.map_cons, List.map_nil, e1, e2]
      rw [show List.map (fun x => (x.1, cells x.2.1, x.2.2)) s.log = p.log from h.log]
    unfold St.visit at hu' ⊢
    by_cases h0 : (s.v v).tail.len = 0
    · rw [if_neg (by simp [h0])] at hu' ⊢
      have hb : (p.v v).bytes = cells [(s.v v).head] := h.bytes v [] (by simp [St.look, h0])
      split at hu'
      · simp [St.fail] at hu'
      · next h1 =>
        rw [if_neg h1]
        split
        · exact key _ _ hb (h.id v)
        · next h2 =>
          split
          · next h3 => simp [h2, h3, St.fail] at hu'
          · refine key _ _ hb ?_
            rw [h.id]
            simp only [Cfg.isReg, Bool.and_eq_true, not_and, bne_iff_ne, ne_eq, Classical.not_not] at h2
            cases hq : s.cfg.uring with
            | true => exact h2 hq
            | false => exact h.off hq v
    · rw [if_pos h0] at hu' ⊢
      split at hu'
      · simp [St.fail] at hu'
      · next h1 =>
        rw [if_neg h1]
        cases hl : s.look (s.v v).tail with
        | none => simp [hl, St.fail] at hu'
        | some tl => exact key _ _ (h.bytes v tl hl) ((h.id v).trans (h.multi v h0))

theorem steps_mono {s : St} {es : List Ev} (h : (s.steps es).ub = false) : s.ub = false := by
  cases hs : s.ub with
  | false => rfl
  | true => rw [steps_ub hs, hs] at h; cases h

theorem Rel.steps (es : List Ev) : ∀ {s : St} {p : Spec}, Rel s p → (s.steps es).ub = false → All Still s es →
    Rel (s.steps es) (p.steps es) := by
  induction es with
  | nil => exact fun h _ _ => h
  | cons e es ih =>
    intro s p h hu hk
    have h1 : (s.step e).ub = false := steps_mono hu
    exact ih (h.step (steps_mono (es := e :: es) hu) e hk.1 h1) hu hk.2

end Cobalt.BufVal
