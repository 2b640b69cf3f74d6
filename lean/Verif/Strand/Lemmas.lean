import Verif.Strand.Spec
/-! Lemmas about coroutines on strands. -/
namespace Cobalt.Strand

theorem upd_app {α : Type} (f : Nat → α) (i : Nat) (a : α) (j : Nat) :
    upd f i a j = if j = i then a else f j := rfl

theorem hold_app (g : Cfg) (s : St) (c : Nat) (b : Bool) (k : Nat) :
    g.hold s c b k = if g.ex c = .strand k then b else s.held k := by
  unfold Cfg.hold
  cases h : g.ex c with
  | pool => simp
  | strand j => simp only [upd_app, Ex.strand.injEq]; grind

theorem release_app (g : Cfg) (s : St) (c : Nat) (i : Bool) (k : Nat) :
    g.release s c i k = if i = true ∧ g.ex c = .strand k then false else s.held k := by
  unfold Cfg.release
  split
  next h => rw [hold_app]; simp [h]
  next h => simp [h]

theorem inside_iff (g : Cfg) (s : St) (c : Nat) :
    g.inside s c = true ↔ ∃ t, t < g.nT ∧ (s.pc t).suspends c = true := by
  simp [Cfg.inside]

/-- The thread is inside of the executor of its coroutine. -/
def Pc.ins : Pc → Bool
  | .idle => false
  | .run _ i | .sus1 _ i | .sus2 _ i => i

/-- What holds before a race. -/
structure Inv (g : Cfg) (s : St) : Prop where
  thr : ∀ t c, (s.pc t).coro = some c → t < g.nT ∧ c < g.nC
  one : ∀ t u c, (s.pc t).coro = some c → (s.pc u).coro = some c → t = u
  run : ∀ t c i, s.pc t = .run c i → s.w c = .busy
  sus : ∀ t c, (s.pc t).suspends c = true → s.w c = .pending ∨ s.w c = .ready
  busy : ∀ c, s.w c = .busy → ∃ t i, s.pc t = .run c i
  lt : ∀ t c, (s.pc t).suspends c = true → 0 < g.ops c
  out : ∀ t c, (s.pc t).coro = some c → (s.pc t).ins = false → g.direct c ≠ none
  held : ∀ t c k, (s.pc t).coro = some c → (s.pc t).ins = true → g.ex c = .strand k →
    s.held k = true
  excl : ∀ t u c d k, (s.pc t).coro = some c → (s.pc u).coro = some d → (s.pc t).ins = true →
    (s.pc u).ins = true → g.ex c = .strand k → g.ex d = .strand k → t = u
  by_ : ∀ k, s.held k = true → ∃ t c, (s.pc t).coro = some c ∧ (s.pc t).ins = true ∧
    g.ex c = .strand k
  left : ∀ c, s.left c ≤ g.ops c
  fin : ∀ c, s.w c = .done → s.left c = 0
  bnd : ∀ c, s.w c ≠ .fresh → c < g.nC

theorem Inv.init (g : Cfg) : Inv g g.init := by
  constructor <;> simp [Cfg.init, Pc.coro, Pc.suspends]

theorem Pc.suspends_coro {p : Pc} {c : Nat} (h : p.suspends c = true) : p.coro = some c := by
  cases p <;> simp [Pc.suspends, Pc.coro] at * <;> exact h

theorem Pc.coro_cases {p : Pc} {c : Nat} (h : p.coro = some c) :
    p.suspends c = true ∨ ∃ i, p = .run c i := by
  cases p <;> simp [Pc.suspends, Pc.coro] at * <;> exact h

/-- Nobody is in a coroutine that is fresh. -/
theorem Inv.nobody {g : Cfg} {s : St} (h : Inv g s) {c : Nat} (h5 : s.w c = .fresh) (u : Nat) :
    (s.pc u).coro ≠ some c := by
  intro hu
  rcases Pc.coro_cases hu with h1 | ⟨i, h1⟩
  · have := h.sus u c h1; grind
  · have := h.run u c i h1; grind

theorem Inv.start {g : Cfg} {s : St} (h : Inv g s) {t c : Nat} (h1 : t < g.nT) (h2 : c < g.nC)
    (h3 : s.pc t = .idle) (h4 : g.direct c = some t) (h5 : s.w c = .fresh) :
    Inv g { s with w := upd s.w c .busy, pc := upd s.pc t (.run c false) } := by
  have n1 := h.nobody h5
  obtain ⟨a1, a2, a3, a4, a5, a6, a7, a8, a9, b1, b2, b3, b4⟩ := h
  constructor
  case busy =>
    intro d hd
    by_cases hdc : d = c
    · exact ⟨t, false, by simp [upd, hdc]⟩
    · obtain ⟨u, i, hu⟩ := a5 d (by simpa [upd, hdc] using hd)
      have : u ≠ t := by rintro rfl; rw [h3] at hu; simp at hu
      exact ⟨u, i, by simp [upd, this, hu]⟩
  case by_ =>
    intro k hk
    obtain ⟨u, d, e1, e2, e3⟩ := b1 k hk
    have : u ≠ t := by rintro rfl; rw [h3] at e1; simp [Pc.coro] at e1
    exact ⟨u, d, by simp [upd, this, e1], by simp [upd, this, e2], e3⟩
  all_goals clear a5 b1
  all_goals dsimp only
  all_goals grind [upd_app, Pc.coro, Pc.suspends, Pc.ins]

theorem Inv.pick {g : Cfg} {s : St} (h : Inv g s) {t c : Nat} (h1 : t < g.nT)
    (h3 : s.pc t = .idle) (h4 : g.job s c = true) (h5 : g.free s c = true)
    (h6 : g.inside s c = false) :
    Inv g { s with w := upd s.w c .busy, pc := upd s.pc t (.run c true)
                   held := g.hold s c true } := by
  simp only [Cfg.job, decide_eq_true_eq] at h4
  have hf : ∀ k, g.ex c = .strand k → s.held k = false := by
    intro k hk; simpa [Cfg.free, hk] using h5
  have n1 : ∀ u, (s.pc u).coro ≠ some c := by
    intro u hu
    rcases Pc.coro_cases hu with e | ⟨i, e⟩
    · have := (inside_iff g s c).2 ⟨u, (h.thr u c hu).1, e⟩
      rw [h6] at this; exact absurd this (by simp)
    · have := h.run u c i e; grind
  obtain ⟨a1, a2, a3, a4, a5, a6, a7, a8, a9, b1, b2, b3, b4⟩ := h
  have hx : ∀ u d k, (s.pc u).coro = some d → (s.pc u).ins = true → g.ex c = .strand k →
      g.ex d ≠ .strand k := by
    intro u d k e1 e2 e3 e4
    have := a8 u d k e1 e2 e4
    rw [hf k e3] at this; exact absurd this (by simp)
  have n2 : ∀ u d, (s.pc u).suspends d = true → (s.pc u).coro = some d :=
    fun u d => Pc.suspends_coro
  constructor
  case excl => clear a1 a2 a3 a4 a5 a6 a7 a8 b1 b2 b3 b4; grind [upd_app, Pc.coro, Pc.ins]
  case busy =>
    intro d hd
    by_cases hdc : d = c
    · exact ⟨t, true, by simp [upd, hdc]⟩
    · obtain ⟨u, i, hu⟩ := a5 d (by simpa [upd, hdc] using hd)
      have : u ≠ t := by rintro rfl; rw [h3] at hu; simp at hu
      exact ⟨u, i, by simp [upd, this, hu]⟩
  case by_ =>
    intro k hk
    by_cases hc : g.ex c = .strand k
    · exact ⟨t, c, by simp [upd, Pc.coro], by simp [upd, Pc.ins], hc⟩
    · have hk : g.hold s c true k = true := hk
      rw [hold_app, if_neg hc] at hk
      obtain ⟨u, d, e1, e2, e3⟩ := b1 k hk
      have : u ≠ t := by rintro rfl; rw [h3] at e1; simp [Pc.coro] at e1
      exact ⟨u, d, by simp [upd, this, e1], by simp [upd, this, e2], e3⟩
  all_goals clear a5 b1
  all_goals dsimp only
  all_goals grind [upd_app, hold_app, Pc.coro, Pc.suspends, Pc.ins]

theorem Inv.io {g : Cfg} {s : St} (h : Inv g s) {c : Nat} (h1 : c < g.nC)
    (h2 : s.w c = .pending) : Inv g { s with w := upd s.w c .ready } := by
  obtain ⟨a1, a2, a3, a4, a5, a6, a7, a8, a9, b1, b2, b3, b4⟩ := h
  constructor
  all_goals dsimp only
  all_goals grind [upd_app]

/-- A thread goes on to `p` in the same coroutine. -/
theorem by_keep {g : Cfg} {s : St} {t c : Nat} {p : Pc} (h1 : (s.pc t).coro = some c)
    (h2 : p.coro = some c) (h3 : p.ins = (s.pc t).ins)
    (h : ∀ k, s.held k = true → ∃ t c, (s.pc t).coro = some c ∧ (s.pc t).ins = true ∧
      g.ex c = .strand k) (k : Nat) (hk : s.held k = true) :
    ∃ u d, (upd s.pc t p u).coro = some d ∧ (upd s.pc t p u).ins = true ∧ g.ex d = .strand k := by
  obtain ⟨u, d, e1, e2, e3⟩ := h k hk
  by_cases hu : u = t
  · subst hu
    rw [h1] at e1
    obtain rfl := Option.some.inj e1
    exact ⟨u, c, by simp [upd, h2], by simp [upd, h3, e2], e3⟩
  · exact ⟨u, d, by simp [upd, hu, e1], by simp [upd, hu, e2], e3⟩

/-- A thread leaves its coroutine. -/
theorem by_leave {g : Cfg} {s : St} {t c : Nat} (h1 : (s.pc t).coro = some c)
    (h : ∀ k, s.held k = true → ∃ t c, (s.pc t).coro = some c ∧ (s.pc t).ins = true ∧
      g.ex c = .strand k) (k : Nat) (hk : g.release s c (s.pc t).ins k = true) :
    ∃ u d, (upd s.pc t .idle u).coro = some d ∧ (upd s.pc t .idle u).ins = true ∧
      g.ex d = .strand k := by
  rw [release_app] at hk
  split at hk
  · exact absurd hk (by simp)
  next hn =>
    obtain ⟨u, d, e1, e2, e3⟩ := h k hk
    by_cases hu : u = t
    · subst hu
      rw [h1] at e1
      obtain rfl := Option.some.inj e1
      exact absurd ⟨e2, e3⟩ hn
    · exact ⟨u, d, by simp [upd, hu, e1], by simp [upd, hu, e2], e3⟩

theorem Inv.go {g : Cfg} {s s' : St} (h : Inv g s) {t : Nat} (h1 : g.go s t (s.pc t) = some s') :
    Inv g s' := by
  obtain ⟨a1, a2, a3, a4, a5, a6, a7, a8, a9, b1, b2, b3, b4⟩ := h
  have n1 := a2 t
  have n2 : ∀ u d, (s.pc u).suspends d = true → (s.pc u).coro = some d :=
    fun u d => Pc.suspends_coro
  cases hp : s.pc t with
  | idle => rw [hp] at h1; simp [Cfg.go] at h1
  | run c i =>
    rw [hp] at h1
    have hb := a3 t c i hp
    have hc : (s.pc t).coro = some c := by rw [hp]; rfl
    have hi : (s.pc t).ins = i := by rw [hp]; rfl
    have hs : ∀ d, (s.pc t).suspends d = false := by intro d; rw [hp]; rfl
    have hx : ∀ d, s.w d = .busy → d ≠ c → ∃ u i, u ≠ t ∧ s.pc u = .run d i := by
      intro d hd hdc
      obtain ⟨u, j, hu⟩ := a5 d hd
      refine ⟨u, j, ?_, hu⟩
      rintro rfl
      rw [hp] at hu
      exact hdc (by simpa [Pc.coro] using (congrArg Pc.coro hu).symm)
    simp only [Cfg.go] at h1
    split at h1
    next hl =>
      obtain rfl := Option.some.inj h1
      constructor
      case busy =>
        intro d hd
        have hdc : d ≠ c := by rintro rfl; simp [upd] at hd
        obtain ⟨u, j, hu, e⟩ := hx d (by simpa [upd, hdc] using hd) hdc
        exact ⟨u, j, by simp [upd, hu, e]⟩
      case by_ => exact by_leave hc b1 |> fun f => by rw [hi] at f; exact f
      all_goals clear a5 b1 hx
      all_goals dsimp only
      all_goals grind [upd_app, release_app, Pc.coro, Pc.suspends, Pc.ins]
    next hl =>
      obtain rfl := Option.some.inj h1
      constructor
      case busy =>
        intro d hd
        have hdc : d ≠ c := by rintro rfl; simp [upd] at hd
        obtain ⟨u, j, hu, e⟩ := hx d (by simpa [upd, hdc] using hd) hdc
        exact ⟨u, j, by simp [upd, hu, e]⟩
      case by_ => exact by_keep hc rfl hi.symm b1
      all_goals clear a5 b1 hx
      all_goals dsimp only
      all_goals grind [upd_app, Pc.coro, Pc.suspends, Pc.ins]
  | sus1 c i =>
    rw [hp] at h1
    have hs := a4 t c (by simp [hp, Pc.suspends])
    have hl := a6 t c (by simp [hp, Pc.suspends])
    have hc : (s.pc t).coro = some c := by rw [hp]; rfl
    have hi : (s.pc t).ins = i := by rw [hp]; rfl
    simp only [Cfg.go] at h1
    obtain rfl := Option.some.inj h1
    constructor
    case busy =>
      intro d hd
      obtain ⟨u, j, hu⟩ := a5 d hd
      have : u ≠ t := by rintro rfl; rw [hp] at hu; simp at hu
      exact ⟨u, j, by simp [upd, this, hu]⟩
    case by_ => exact by_keep hc rfl hi.symm b1
    all_goals clear a5 b1
    all_goals dsimp only
    all_goals grind [upd_app, Pc.coro, Pc.suspends, Pc.ins]
  | sus2 c i =>
    rw [hp] at h1
    have hs := a4 t c (by simp [hp, Pc.suspends])
    have hc : (s.pc t).coro = some c := by rw [hp]; rfl
    have hi : (s.pc t).ins = i := by rw [hp]; rfl
    simp only [Cfg.go] at h1
    obtain rfl := Option.some.inj h1
    constructor
    case busy =>
      intro d hd
      obtain ⟨u, j, hu⟩ := a5 d hd
      have : u ≠ t := by rintro rfl; rw [hp] at hu; simp at hu
      exact ⟨u, j, by simp [upd, this, hu]⟩
    case by_ => exact by_leave hc b1 |> fun f => by rw [hi] at f; exact f
    all_goals clear a5 b1
    all_goals dsimp only
    all_goals grind [upd_app, release_app, Pc.coro, Pc.suspends, Pc.ins]

/-- An event before a race keeps the invariant or is a race of a coroutine that is not spawned onto
a strand. -/
theorem Inv.next {g : Cfg} {s s' : St} (h : Inv g s) (hr : s.race = false) {e : Ev}
    (h1 : g.next s e = some s') :
    (Inv g s' ∧ s'.race = false) ∨
      (s'.race = true ∧ 2 ≤ g.nT ∧ ∃ c, c < g.nC ∧ 0 < g.ops c ∧
        (g.direct c ≠ none ∨ g.ex c = .pool)) := by
  cases e with
  | start t c =>
    simp only [Cfg.next] at h1
    split at h1
    next hc =>
      obtain rfl := Option.some.inj h1
      exact Or.inl ⟨h.start hc.1 hc.2.1 hc.2.2.1 hc.2.2.2.1 hc.2.2.2.2, hr⟩
    next => exact absurd h1 (by simp)
  | io c =>
    simp only [Cfg.next] at h1
    split at h1
    next hc =>
      obtain rfl := Option.some.inj h1
      exact Or.inl ⟨h.io hc.1 hc.2, hr⟩
    next => exact absurd h1 (by simp)
  | step t =>
    simp only [Cfg.next] at h1
    split at h1
    next hc =>
      refine Or.inl ⟨h.go h1, ?_⟩
      cases hp : s.pc t with
      | idle => rw [hp] at h1; simp [Cfg.go] at h1
      | run c i =>
        rw [hp] at h1; simp only [Cfg.go] at h1
        split at h1 <;> (obtain rfl := Option.some.inj h1; exact hr)
      | sus1 c i => rw [hp] at h1; obtain rfl := Option.some.inj h1; exact hr
      | sus2 c i => rw [hp] at h1; obtain rfl := Option.some.inj h1; exact hr
    next => exact absurd h1 (by simp)
  | pick t c =>
    simp only [Cfg.next] at h1
    split at h1
    next hc =>
      obtain ⟨h2, h3, h4, h5⟩ := hc
      split at h1
      next hi =>
        obtain rfl := Option.some.inj h1
        refine Or.inr ⟨rfl, ?_⟩
        obtain ⟨u, hu, hs⟩ := (inside_iff g s c).1 hi
        have hco := Pc.suspends_coro hs
        have hne : u ≠ t := by rintro rfl; rw [h3] at hs; simp [Pc.suspends] at hs
        refine ⟨by omega, c, (h.thr u c hco).2, h.lt u c hs, ?_⟩
        cases hin : (s.pc u).ins with
        | false => exact Or.inl (h.out u c hco hin)
        | true =>
          cases hx : g.ex c with
          | pool => exact Or.inr rfl
          | strand k =>
            have := h.held u c k hco hin hx
            simp [Cfg.free, hx, this] at h5
      next hi =>
        obtain rfl := Option.some.inj h1
        exact Or.inl ⟨h.pick h2 h3 h4 h5 (by simpa using hi), hr⟩
    next => exact absurd h1 (by simp)

theorem runs_inv {g : Cfg} {s s' : St} {es : List Ev} (h : Runs g s es s') (hi : Inv g s) :
    (Inv g s' ∧ s'.race = s'.race) ∧ s'.race = false ∨
      (s'.race = true ∧ (s.race = true ∨ (2 ≤ g.nT ∧ ∃ c, c < g.nC ∧ 0 < g.ops c ∧
        (g.direct c ≠ none ∨ g.ex c = .pool)))) := by
  induction h with
  | nil s =>
    cases hr : s.race with
    | false => exact Or.inl ⟨⟨hi, rfl⟩, rfl⟩
    | true => exact Or.inr ⟨rfl, Or.inl rfl⟩
  | cons hr h1 h2 ih =>
    rcases hi.next hr h1 with ⟨hi', hr'⟩ | ⟨hr', h3⟩
    · rcases ih hi' with h4 | ⟨h4, h5⟩
      · exact Or.inl h4
      · rcases h5 with h5 | h5
        · rw [hr'] at h5; exact absurd h5 (by simp)
        · exact Or.inr ⟨h4, Or.inr h5⟩
    · cases h2 with
      | nil => exact Or.inr ⟨hr', Or.inr h3⟩
      | cons hx => rw [hr'] at hx; exact absurd hx (by simp)

/-! The number of events. -/

theorem total_congr {f f' : Nat → Nat} : ∀ n, (∀ i, i < n → f i = f' i) → total f n = total f' n
  | 0, _ => rfl
  | n + 1, h => by
    simp only [total]
    rw [total_congr n (fun i hi => h i (by omega)), h n (by omega)]

theorem total_upd {f f' : Nat → Nat} {i : Nat} (h : ∀ j, j ≠ i → f' j = f j) :
    ∀ n, i < n → total f' n + f i = total f n + f' i
  | 0, hi => absurd hi (by omega)
  | n + 1, hi => by
    simp only [total]
    by_cases hn : i = n
    · subst hn
      rw [total_congr (f := f') (f' := f) i (fun j hj => h j (by omega))]
      omega
    · have := total_upd h n (by omega)
      rw [h n (by omega)]
      omega

theorem total_set {f f' : Nat → Nat} {i a b : Nat} (ha : f i = a) (hb : f' i = b)
    (h : ∀ j, j ≠ i → f' j = f j) (n : Nat) (hi : i < n) : total f' n + a = total f n + b := by
  rw [← ha, ← hb]; exact total_upd h n hi

theorem total_zero {f : Nat → Nat} : ∀ n, (∀ i, i < n → f i = 0) → total f n = 0
  | 0, _ => rfl
  | n + 1, h => by
    simp only [total]
    rw [total_zero n (fun i hi => h i (by omega)), h n (by omega)]

def wgt : W → Nat
  | .fresh => 2
  | .busy => 1
  | .pending => 3
  | .ready => 2
  | .done => 0

def pwgt : Pc → Nat
  | .sus1 _ _ => 2
  | .sus2 _ _ => 1
  | _ => 0

/-- The events that are still to come. -/
def todo (g : Cfg) (s : St) : Nat :=
  total (fun c => 5 * s.left c + wgt (s.w c)) g.nC + total (fun t => pwgt (s.pc t)) g.nT

theorem next_todo {g : Cfg} {s s' : St} (h : Inv g s) {e : Ev} (h1 : g.next s e = some s')
    (hr : s'.race = false) : todo g s = todo g s' + 1 := by
  cases e with
  | start t c =>
    simp only [Cfg.next] at h1
    split at h1
    next hc =>
      obtain ⟨c1, c2, c3, c4, c5⟩ := hc
      obtain rfl := Option.some.inj h1
      have e1 := total_set (f := fun c => 5 * s.left c + wgt (s.w c))
        (f' := fun d => 5 * s.left d + wgt (upd s.w c .busy d)) (i := c)
        (by simp [wgt, pwgt, *]; try rfl) (by simp [upd, wgt, pwgt]; try rfl)
              (fun j hj => by simp [upd, hj]) g.nC c2
      have e2 := total_set (f := fun t => pwgt (s.pc t))
        (f' := fun u => pwgt (upd s.pc t (.run c false) u)) (i := t)
        (by simp [wgt, pwgt, *]; try rfl) (by simp [upd, wgt, pwgt]; try rfl)
              (fun j hj => by simp [upd, hj]) g.nT c1
      simp only [todo]
      omega
    next => exact absurd h1 (by simp)
  | io c =>
    simp only [Cfg.next] at h1
    split at h1
    next hc =>
      obtain ⟨c1, c2⟩ := hc
      obtain rfl := Option.some.inj h1
      have e1 := total_set (f := fun c => 5 * s.left c + wgt (s.w c))
        (f' := fun d => 5 * s.left d + wgt (upd s.w c .ready d)) (i := c)
        (by simp [wgt, pwgt, *]; try rfl) (by simp [upd, wgt, pwgt]; try rfl)
              (fun j hj => by simp [upd, hj]) g.nC c1
      simp only [todo]
      omega
    next => exact absurd h1 (by simp)
  | pick t c =>
    simp only [Cfg.next] at h1
    split at h1
    next hc =>
      obtain ⟨c1, c2, c3, c4⟩ := hc
      split at h1
      next => obtain rfl := Option.some.inj h1; exact absurd hr (by simp)
      next =>
        obtain rfl := Option.some.inj h1
        simp only [Cfg.job, decide_eq_true_eq] at c3
        have hw : wgt (s.w c) = 2 := by rcases c3.2 with e | e <;> simp [e, wgt]
        have e1 := total_set (f := fun c => 5 * s.left c + wgt (s.w c))
          (f' := fun d => 5 * s.left d + wgt (upd s.w c .busy d)) (i := c)
          (by rw [hw] : 5 * s.left c + wgt (s.w c) = 5 * s.left c + 2) (by simp [upd, wgt, pwgt]; try rfl)
              (fun j hj => by simp [upd, hj]) g.nC c3.1
        have e2 := total_set (f := fun t => pwgt (s.pc t))
          (f' := fun u => pwgt (upd s.pc t (.run c true) u)) (i := t)
          (by simp [wgt, pwgt, *]; try rfl) (by simp [upd, wgt, pwgt]; try rfl)
              (fun j hj => by simp [upd, hj]) g.nT c1
        simp only [todo]
        omega
    next => exact absurd h1 (by simp)
  | step t =>
    simp only [Cfg.next] at h1
    split at h1
    next ht =>
      cases hp : s.pc t with
      | idle => rw [hp] at h1; simp [Cfg.go] at h1
      | run c i =>
        have hb := h.run t c i hp
        have hn := (h.thr t c (by rw [hp]; rfl)).2
        rw [hp] at h1
        simp only [Cfg.go] at h1
        split at h1
        next hl =>
          obtain rfl := Option.some.inj h1
          have e1 := total_set (f := fun c => 5 * s.left c + wgt (s.w c))
            (f' := fun d => 5 * s.left d + wgt (upd s.w c .done d)) (i := c)
            (by simp [wgt, pwgt, *]; try rfl) (by simp [upd, wgt, pwgt]; try rfl)
              (fun j hj => by simp [upd, hj]) g.nC hn
          have e2 := total_set (f := fun t => pwgt (s.pc t))
            (f' := fun u => pwgt (upd s.pc t .idle u)) (i := t)
            (by simp [wgt, pwgt, *]; try rfl) (by simp [upd, wgt, pwgt]; try rfl)
              (fun j hj => by simp [upd, hj]) g.nT ht
          simp only [todo]
          omega
        next hl =>
          obtain rfl := Option.some.inj h1
          have e1 := total_set (f := fun c => 5 * s.left c + wgt (s.w c))
            (f' := fun d => 5 * upd s.left c (s.left c - 1) d + wgt (upd s.w c .pending d)) (i := c)
            (by simp [wgt, pwgt, *]; try rfl) (by simp [upd, wgt, pwgt]; try rfl)
              (fun j hj => by simp [upd, hj]) g.nC hn
          have e2 := total_set (f := fun t => pwgt (s.pc t))
            (f' := fun u => pwgt (upd s.pc t (.sus1 c i) u)) (i := t)
            (by simp [wgt, pwgt, *]; try rfl) (by simp [upd, wgt, pwgt]; try rfl)
              (fun j hj => by simp [upd, hj]) g.nT ht
          simp only [todo]
          omega
      | sus1 c i =>
        rw [hp] at h1
        obtain rfl := Option.some.inj h1
        have e2 := total_set (f := fun t => pwgt (s.pc t))
          (f' := fun u => pwgt (upd s.pc t (.sus2 c i) u)) (i := t)
          (by simp [wgt, pwgt, *]; try rfl) (by simp [upd, wgt, pwgt]; try rfl)
              (fun j hj => by simp [upd, hj]) g.nT ht
        simp only [todo]
        omega
      | sus2 c i =>
        rw [hp] at h1
        obtain rfl := Option.some.inj h1
        have e2 := total_set (f := fun t => pwgt (s.pc t))
          (f' := fun u => pwgt (upd s.pc t .idle u)) (i := t)
          (by simp [wgt, pwgt, *]; try rfl) (by simp [upd, wgt, pwgt]; try rfl)
              (fun j hj => by simp [upd, hj]) g.nT ht
        simp only [todo]
        omega
    next => exact absurd h1 (by simp)

theorem runs_todo {g : Cfg} {s s' : St} {es : List Ev} (h : Runs g s es s') (hi : Inv g s)
    (hr : s'.race = false) : todo g s = todo g s' + es.length := by
  induction h with
  | nil s => simp
  | @cons s s' s'' e es hr1 h1 h2 ih =>
    have hr' : s'.race = false := by
      cases h2 with
      | nil => exact hr
      | cons hx => exact hx
    rcases hi.next hr1 h1 with ⟨hi', -⟩ | ⟨hx, -⟩
    · have e1 := next_todo hi h1 hr'
      have e2 := ih hi' hr
      simp only [List.length_cons]
      omega
    · rw [hr'] at hx; exact absurd hx (by simp)

/-- If nothing is possible everything is done. -/
theorem stuck_done {g : Cfg} {s : St} (hg : g.Ok) (h0 : 0 < g.nT) (h : Inv g s)
    (hs : Stuck g s) (c : Nat) (hc : c < g.nC) : s.w c = .done := by
  have hidle : ∀ t, s.pc t = .idle := by
    intro t
    cases hp : s.pc t with
    | idle => rfl
    | run d i =>
      have ht := (h.thr t d (by rw [hp]; rfl)).1
      have := hs (.step t)
      simp only [Cfg.next, ht, hp, Cfg.go, if_true] at this
      split at this <;> exact absurd this (by simp)
    | sus1 d i =>
      have ht := (h.thr t d (by rw [hp]; rfl)).1
      have := hs (.step t)
      simp [Cfg.next, ht, hp, Cfg.go] at this
    | sus2 d i =>
      have ht := (h.thr t d (by rw [hp]; rfl)).1
      have := hs (.step t)
      simp [Cfg.next, ht, hp, Cfg.go] at this
  have hheld : ∀ k, s.held k = false := by
    intro k
    cases hk : s.held k with
    | false => rfl
    | true =>
      obtain ⟨t, d, e1, -⟩ := h.by_ k hk
      rw [hidle t] at e1
      exact absurd e1 (by simp [Pc.coro])
  have hfree : g.free s c = true := by
    unfold Cfg.free
    split <;> simp [hheld]
  have hpick : g.job s c = true → False := by
    intro hj
    have := hs (.pick 0 c)
    simp only [Cfg.next, h0, hidle 0, hj, hfree, and_self, if_true] at this
    split at this <;> exact absurd this (by simp)
  cases hw : s.w c with
  | done => rfl
  | fresh =>
    cases hd : g.direct c with
    | none => exact absurd (by simp [Cfg.job, hc, hw, hd]) hpick
    | some t =>
      have := hs (.start t c)
      simp [Cfg.next, hg c t hc hd, hc, hidle t, hd, hw] at this
  | busy =>
    obtain ⟨t, i, hp⟩ := h.busy c hw
    rw [hidle t] at hp
    exact absurd hp (by simp)
  | pending =>
    have := hs (.io c)
    simp [Cfg.next, hc, hw] at this
  | ready => exact absurd (by simp [Cfg.job, hc, hw]) hpick

/-- A thread outside of the strand starts an operation, and another one takes its completion. -/
theorem to_race {g : Cfg} {s : St} {t u c : Nat} {i : Bool} (hr : s.race = false) (ht : t < g.nT)
    (hu : u < g.nT) (hut : u ≠ t) (hc : c < g.nC) (hp : s.pc t = .run c i) (hl : s.left c ≠ 0)
    (hi : s.pc u = .idle) (hf : ∀ k, g.ex c = .strand k → s.held k = false) :
    ∃ s', Runs g s [.step t, .io c, .pick u c] s' ∧ s'.race = true := by
  have h1 : g.next s (.step t) = some { s with
      w := upd s.w c .pending, left := upd s.left c (s.left c - 1)
      pc := upd s.pc t (.sus1 c i) } := by
    simp [Cfg.next, ht, hp, Cfg.go, hl]
  generalize hs1 : ({ s with
      w := upd s.w c .pending, left := upd s.left c (s.left c - 1)
      pc := upd s.pc t (.sus1 c i) } : St) = s1 at h1
  have h2 : g.next s1 (.io c) = some { s1 with w := upd s1.w c .ready } := by
    subst hs1
    simp [Cfg.next, hc, upd]
  generalize hs2 : ({ s1 with w := upd s1.w c .ready } : St) = s2 at h2
  have h3 : g.next s2 (.pick u c) = some { s2 with race := true } := by
    have hin : g.inside s2 c = true :=
      (inside_iff g s2 c).2 ⟨t, ht, by subst hs2 hs1; simp [upd, Pc.suspends]⟩
    have hfr : g.free s2 c = true := by
      subst hs2 hs1
      unfold Cfg.free
      split
      next k hk => simp [hf k hk]
      next => rfl
    have hj : g.job s2 c = true := by
      subst hs2
      simp [Cfg.job, hc, upd]
    have hid : s2.pc u = .idle := by subst hs2 hs1; simp [upd, hut, hi]
    simp only [Cfg.next, hu, hid, hj, hfr, hin, and_self, if_true]
  refine ⟨{ s2 with race := true }, .cons hr h1 (.cons ?_ h2 (.cons ?_ h3 (.nil _))), rfl⟩
  · subst hs1; exact hr
  · subst hs2 hs1; exact hr

/-- The events of a list one after the other. -/
def exec (g : Cfg) (s : St) : List Ev → Option St
  | [] => some s
  | e :: es =>
    if s.race then none
    else match g.next s e with
      | none => none
      | some s' => exec g s' es

theorem exec_runs {g : Cfg} : ∀ (es : List Ev) (s s' : St), exec g s es = some s' → Runs g s es s'
  | [], s, s', h => by obtain rfl := Option.some.inj h; exact .nil _
  | e :: es, s, s', h => by
    simp only [exec] at h
    split at h
    · exact absurd h (by simp)
    next hr =>
      split at h
      · exact absurd h (by simp)
      next s1 h1 => exact .cons (by simpa using hr) h1 (exec_runs es s1 s' h)

end Cobalt.Strand
