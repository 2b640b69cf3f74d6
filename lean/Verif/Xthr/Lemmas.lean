import Verif.Xthr.Spec
/-!
# Lemmas about spawning onto another thread
-/
namespace Cobalt.Xthr

/-- Programs in which `a` sends once, `b` receives that first, and `b` sends back at most once. -/
structure Shape (pa pb : List Act) (S D R : Nat) (back : Bool) : Prop where
  sendA : ∀ i k, pa[i]? = some (.send k) ↔ k = 0 ∧ i = S
  recvB : ∀ i k, pb[i]? = some (.recv k) ↔ k = 0 ∧ i = 0
  sendB : ∀ i k, pb[i]? = some (.send k) ↔ k = 1 ∧ i = D ∧ back = true
  recvA : ∀ i k, pa[i]? = some (.recv k) ↔ k = 1 ∧ i = R ∧ back = true
  order : S < R

/-- What happens before what. -/
def Before (S D R : Nat) (back : Bool) : Thread × Nat → Thread × Nat → Prop
  | (.a, i), (.a, j) => i < j
  | (.b, i), (.b, j) => i < j
  | (.a, i), (.b, _) => i ≤ S
  | (.b, j), (.a, i) => j ≤ D ∧ R ≤ i ∧ back = true

theorem Shape.before {pa pb : List Act} {S D R : Nat} {back : Bool} (h : Shape pa pb S D R back)
    {x y : Thread × Nat} (hb : HB pa pb x y) : Before S D R back x y := by
  induction hb with
  | @po t i j hij => cases t <;> exact hij
  | @sync t t' i j k hs hr =>
    cases t <;> cases t' <;> simp only [prog] at hs hr
    · rw [h.sendA] at hs; rw [h.recvA] at hr; omega
    · rw [h.sendA] at hs; exact Nat.le_of_eq hs.2
    · rw [h.sendB] at hs; rw [h.recvA] at hr
      exact ⟨Nat.le_of_eq hs.2.1, Nat.le_of_eq hr.2.1.symm, hs.2.2⟩
    · rw [h.sendB] at hs; rw [h.recvB] at hr; omega
  | @trans x y z _ _ h1 h2 =>
    obtain ⟨tx, i⟩ := x
    obtain ⟨ty, j⟩ := y
    obtain ⟨tz, k⟩ := z
    have := h.order
    cases tx <;> cases ty <;> cases tz <;> simp only [Before] at h1 h2 ⊢ <;>
      first | omega | exact ⟨by omega, by omega, by first | exact h1.2.2 | exact h2.2.2⟩

theorem Shape.ab {pa pb : List Act} {S D R : Nat} {back : Bool} (h : Shape pa pb S D R back)
    {i j : Nat} (hi : i ≤ S) (hj : 0 < j) : HB pa pb (.a, i) (.b, j) := by
  have hs : HB pa pb (.a, S) (.b, 0) :=
    .sync (k := 0) ((h.sendA S 0).mpr ⟨rfl, rfl⟩) ((h.recvB 0 0).mpr ⟨rfl, rfl⟩)
  have hsj : HB pa pb (.a, S) (.b, j) := .trans hs (.po hj)
  rcases Nat.lt_or_eq_of_le hi with hl | rfl
  · exact .trans (.po hl) hsj
  · exact hsj

theorem Shape.ba {pa pb : List Act} {S D R : Nat} (h : Shape pa pb S D R true)
    {i j : Nat} (hj : j ≤ D) (hi : R ≤ i) : HB pa pb (.b, j) (.a, i) := by
  have hs : HB pa pb (.b, D) (.a, R) :=
    .sync (k := 1) ((h.sendB D 1).mpr ⟨rfl, rfl, rfl⟩) ((h.recvA R 1).mpr ⟨rfl, rfl, rfl⟩)
  have hsj : HB pa pb (.b, D) (.a, i) := by
    rcases Nat.lt_or_eq_of_le hi with hl | rfl
    · exact .trans hs (.po hl)
    · exact hs
  rcases Nat.lt_or_eq_of_le hj with hl | rfl
  · exact .trans (.po hl) hsj
  · exact hsj

/-- A race is a use by `a` after sending, and not after what it received. -/
theorem Shape.race {pa pb : List Act} {S D R : Nat} {back : Bool} (h : Shape pa pb S D R back) :
    Race pa pb ↔ ∃ i j, pa[i]? = some (.use .pool) ∧ pb[j]? = some (.use .pool) ∧
      S < i ∧ ¬ (j ≤ D ∧ R ≤ i ∧ back = true) := by
  constructor
  · rintro ⟨i, j, hi, hj, h1, h2⟩
    have hj0 : 0 < j := by
      rcases Nat.eq_zero_or_pos j with rfl | hp
      · rw [(h.recvB 0 0).mpr ⟨rfl, rfl⟩] at hj; cases hj
      · exact hp
    refine ⟨i, j, hi, hj, ?_, ?_⟩
    · exact Nat.lt_of_not_le fun hle => h1 (h.ab hle hj0)
    · rintro ⟨ha, hb, rfl⟩
      exact h2 (h.ba ha hb)
  · rintro ⟨i, j, hi, hj, h1, h2⟩
    refine ⟨i, j, hi, hj, fun hb => ?_, fun hb => h2 (h.before hb)⟩
    have : i ≤ S := h.before hb
    omega

theorem map_use (l : List Res) (i : Nat) (x : Act) :
    (l.map Act.use)[i]? = some x ↔ ∃ r, l[i]? = some r ∧ x = .use r := by
  rw [List.getElem?_map]
  cases l[i]? with
  | none => simp
  | some r => simp [eq_comm]

theorem seg (X : List Res) (y : Act) (l : List Act) (i : Nat) (x : Act) :
    (X.map Act.use ++ y :: l)[i]? = some x ↔
      (∃ r, X[i]? = some r ∧ x = .use r) ∨ (i = X.length ∧ y = x) ∨
      (X.length < i ∧ l[i - X.length - 1]? = some x) := by
  by_cases h1 : i < X.length
  · rw [List.getElem?_append_left (by simpa using h1), map_use]
    constructor
    · exact .inl
    · rintro (h | h | h)
      · exact h
      · omega
      · omega
  · have hn : X[i]? = none := List.getElem?_eq_none (by omega)
    rw [List.getElem?_append_right (by simpa using h1), hn, List.length_map]
    by_cases h2 : i = X.length
    · subst h2; simp
    · have h3 : i - X.length = (i - X.length - 1) + 1 := by omega
      rw [h3, List.getElem?_cons_succ]
      constructor
      · intro h; exact .inr (.inr ⟨by omega, by rw [← h]; congr 1⟩)
      · rintro (⟨r, hr, _⟩ | ⟨h, _⟩ | ⟨_, h⟩)
        · cases hr
        · exact absurd h h2
        · rw [← h]; congr 1

/-- What `a` uses up to the spawn. -/
def Cfg.before (c : Cfg) (pre : List Res) : List Res := pre ++ [c.frame, c.alloc, c.alloc, c.frame]

theorem before_eq (c : Cfg) (pre : List Res) :
    pre.map Act.use ++ c.spawn = (c.before pre).map Act.use := by
  simp [Cfg.before, Cfg.spawn]

theorem shape_back (X Y Z U V : List Res) :
    Shape (X.map Act.use ++ .send 0 :: (Y.map Act.use ++ .recv 1 :: Z.map Act.use))
      (.recv 0 :: (U.map Act.use ++ .send 1 :: V.map Act.use)) X.length (U.length + 1)
      (X.length + 1 + Y.length) true where
  sendA i k := by
    rw [seg, seg, map_use]
    constructor
    · rintro (⟨r, _, h⟩ | ⟨h, h'⟩ | ⟨_, ⟨r, _, h⟩ | ⟨_, h⟩ | ⟨_, ⟨r, _, h⟩⟩⟩) <;> first | (cases h; done) | skip
      cases h'; exact ⟨rfl, h⟩
    · rintro ⟨rfl, rfl⟩; exact .inr (.inl ⟨rfl, rfl⟩)
  recvB i k := by
    cases i with
    | zero => simp [eq_comm]
    | succ i =>
      rw [List.getElem?_cons_succ, seg, map_use]
      constructor
      · rintro (⟨r, _, h⟩ | ⟨_, h⟩ | ⟨_, ⟨r, _, h⟩⟩) <;> cases h
      · rintro ⟨_, h⟩; cases h
  sendB i k := by
    cases i with
    | zero => simp
    | succ i =>
      rw [List.getElem?_cons_succ, seg, map_use]
      constructor
      · rintro (⟨r, _, h⟩ | ⟨h, h'⟩ | ⟨_, ⟨r, _, h⟩⟩) <;> first | (cases h; done) | skip
        cases h'; exact ⟨rfl, by omega, rfl⟩
      · rintro ⟨rfl, h, _⟩; exact .inr (.inl ⟨by omega, rfl⟩)
  recvA i k := by
    rw [seg, seg, map_use]
    constructor
    · rintro (⟨r, _, h⟩ | ⟨h, h'⟩ | ⟨hl, ⟨r, _, h⟩ | ⟨h, h'⟩ | ⟨_, ⟨r, _, h⟩⟩⟩) <;>
        first | (cases h; done) | (cases h'; done) | skip
      cases h'; exact ⟨rfl, by omega, rfl⟩
    · rintro ⟨rfl, h, _⟩; exact .inr (.inr ⟨by omega, .inr (.inl ⟨by omega, rfl⟩)⟩)
  order := by omega

theorem shape_never (X Y U : List Res) :
    Shape (X.map Act.use ++ .send 0 :: Y.map Act.use)
      (.recv 0 :: U.map Act.use) X.length 0 (X.length + 1) false where
  sendA i k := by
    rw [seg, map_use]
    constructor
    · rintro (⟨r, _, h⟩ | ⟨h, h'⟩ | ⟨_, ⟨r, _, h⟩⟩) <;> first | (cases h; done) | skip
      cases h'; exact ⟨rfl, h⟩
    · rintro ⟨rfl, rfl⟩; exact .inr (.inl ⟨rfl, rfl⟩)
  recvB i k := by
    cases i with
    | zero => simp [eq_comm]
    | succ i => rw [List.getElem?_cons_succ, map_use]; simp
  sendB i k := by
    cases i with
    | zero => simp
    | succ i => rw [List.getElem?_cons_succ, map_use]; simp
  recvA i k := by
    rw [seg, map_use]
    constructor
    · rintro (⟨r, _, h⟩ | ⟨h, h'⟩ | ⟨_, ⟨r, _, h⟩⟩) <;>
        first | (cases h; done) | (cases h'; done)
    · rintro ⟨_, _, h⟩; cases h
  order := by omega

theorem mem_getElem? {l : List Res} {r : Res} : r ∈ l ↔ ∃ i : Nat, l[i]? = some r :=
  List.mem_iff_getElem?

/-- With an answer: the race is with what `a` does before it. -/
theorem race_back (X Y Z U V : List Res) (hV : Res.pool ∉ V) :
    Race (X.map Act.use ++ .send 0 :: (Y.map Act.use ++ .recv 1 :: Z.map Act.use))
      (.recv 0 :: (U.map Act.use ++ .send 1 :: V.map Act.use)) ↔
      Res.pool ∈ Y ∧ Res.pool ∈ U := by
  rw [(shape_back X Y Z U V).race]
  constructor
  · rintro ⟨i, j, hi, hj, h1, h2⟩
    have hU : Res.pool ∈ U ∧ j ≤ U.length + 1 := by
      cases j with
      | zero => cases hj
      | succ j =>
        rw [List.getElem?_cons_succ, seg, map_use] at hj
        rcases hj with ⟨r, hr, h⟩ | ⟨_, h⟩ | ⟨_, r, hr, h⟩
        · cases h
          exact ⟨mem_getElem?.mpr ⟨j, hr⟩, by
            have := (List.getElem?_eq_some_iff.mp hr).1; omega⟩
        · cases h
        · cases h; exact absurd (mem_getElem?.mpr ⟨_, hr⟩) hV
    refine ⟨?_, hU.1⟩
    rw [seg, seg, map_use] at hi
    rcases hi with ⟨r, hr, _⟩ | ⟨h, _⟩ | ⟨_, ⟨r, hr, h⟩ | ⟨_, h⟩ | ⟨hl, _⟩⟩
    · have := (List.getElem?_eq_some_iff.mp hr).1; omega
    · omega
    · cases h; exact mem_getElem?.mpr ⟨_, hr⟩
    · cases h
    · exact absurd ⟨hU.2, by omega, rfl⟩ h2
  · rintro ⟨hY, hU⟩
    obtain ⟨i, hi⟩ := mem_getElem?.mp hY
    obtain ⟨j, hj⟩ := mem_getElem?.mp hU
    have hil := (List.getElem?_eq_some_iff.mp hi).1
    refine ⟨X.length + 1 + i, j + 1, ?_, ?_, by omega, by omega⟩
    · rw [seg, seg]
      refine .inr (.inr ⟨by omega, .inl ⟨_, ?_, rfl⟩⟩)
      rw [← hi]; congr 1; omega
    · rw [List.getElem?_cons_succ, seg]
      exact .inl ⟨_, hj, rfl⟩

/-- Without one: the race is with all `a` does afterwards. -/
theorem race_never (X Y U : List Res) :
    Race (X.map Act.use ++ .send 0 :: Y.map Act.use) (.recv 0 :: U.map Act.use) ↔
      Res.pool ∈ Y ∧ Res.pool ∈ U := by
  rw [(shape_never X Y U).race]
  constructor
  · rintro ⟨i, j, hi, hj, h1, _⟩
    constructor
    · rw [seg, map_use] at hi
      rcases hi with ⟨r, hr, _⟩ | ⟨h, _⟩ | ⟨_, r, hr, h⟩
      · have := (List.getElem?_eq_some_iff.mp hr).1; omega
      · omega
      · cases h; exact mem_getElem?.mpr ⟨_, hr⟩
    · cases j with
      | zero => cases hj
      | succ j =>
        rw [List.getElem?_cons_succ, map_use] at hj
        obtain ⟨r, hr, h⟩ := hj
        cases h; exact mem_getElem?.mpr ⟨_, hr⟩
  · rintro ⟨hY, hU⟩
    obtain ⟨i, hi⟩ := mem_getElem?.mp hY
    obtain ⟨j, hj⟩ := mem_getElem?.mp hU
    refine ⟨X.length + 1 + i, j + 1, ?_, ?_, by omega, by simp⟩
    · rw [seg, map_use]
      refine .inr (.inr ⟨by omega, _, ?_, rfl⟩)
      rw [← hi]; congr 1; omega
    · rw [List.getElem?_cons_succ, map_use]
      exact ⟨_, hj, rfl⟩

end Cobalt.Xthr
