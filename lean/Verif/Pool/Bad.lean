import Verif.Pool.Eqs
/-! Helper: what goes wrong in a pool. -/
namespace Cobalt.Pool

open Chan (Tok Status Pl View Next lastTok upd upd_apply)

structure PV (s : St) (c : Option Co) (cap b : Nat) (rq wq : List Nat) (posted : List Tok) : Prop where
  v : ∃ o, View s.ch b rq wq posted o
  cur : s.cur = c
  cap : s.ch.cap = cap

/-- Operations stay whose they are. -/
structure Kp (s s' : St) : Prop where
  nextW : s.ch.nextW ≤ s'.ch.nextW
  ownW : ∀ j, j < s.ch.nextW → s'.ownW j = s.ownW j
  np : s'.np = s.np

theorem Kp.refl (s : St) : Kp s s := ⟨Nat.le_refl _, fun _ _ => rfl, rfl⟩

theorem Kp.trans {s t u : St} (a : Kp s t) (b : Kp t u) : Kp s u :=
  ⟨Nat.le_trans a.nextW b.nextW, fun j hj => (b.ownW j (Nat.lt_of_lt_of_le hj a.nextW)).trans (a.ownW j hj),
    b.np.trans a.np⟩

variable {s : St} {cap b : Nat} {rq wq : List Nat} {posted : List Tok}

theorem go_eq (hu : s.ch.ub = false) {c : Co} (hc : s.cur = some c) : s.step .go = s.goOn c := by
  simp [St.step, hu, hc]

/-- What a producer that writes does. -/
theorem go_p (hu : s.ch.ub = false) {i n : Nat} (hc : s.cur = some (.p i)) (ht : s.todo i = n + 1) :
    (s.step .go).ch = s.ch.steps [.mkW, .awaitW s.ch.nextW true false []] ∧
    (s.step .go).ownW = upd s.ownW s.ch.nextW i ∧ (s.step .go).todo = upd s.todo i n ∧
    (s.step .go).np = s.np ∧ (s.step .go).ownR = s.ownR ∧
    (s.step .go).cur = (lastTok (s.step .go).ch.log).map (s.step .go).own := by
  have h0 : ¬ s.todo i = 0 := by omega
  have hn : s.todo i - 1 = n := by omega
  rw [go_eq hu hc]
  simp only [St.goOn, h0, if_false, hn]
  exact ⟨trivial, trivial, trivial, trivial, trivial, by rw [next_eq]; rfl⟩

theorem go_w (hu : s.ch.ub = false) {i : Nat} (hc : s.cur = some (.w i)) :
    (s.step .go).ch = s.ch.steps [.mkR, .awaitR s.ch.nextR true false []] ∧
    (s.step .go).ownR = upd s.ownR s.ch.nextR i ∧ (s.step .go).todo = s.todo ∧
    (s.step .go).np = s.np ∧ (s.step .go).ownW = s.ownW ∧
    (s.step .go).cur = (lastTok (s.step .go).ch.log).map (s.step .go).own := by
  rw [go_eq hu hc]
  simp only [St.goOn]
  exact ⟨trivial, trivial, trivial, trivial, trivial, by rw [next_eq]; rfl⟩

theorem go_run (hu : s.ch.ub = false) (hc : s.cur = none) (hp : s.ch.posted ≠ []) :
    (s.step (.run 0)).ch = s.ch.step (.run 0) ∧ (s.step (.run 0)).todo = s.todo ∧ (s.step (.run 0)).np = s.np ∧
    (s.step (.run 0)).ownW = s.ownW ∧ (s.step (.run 0)).ownR = s.ownR ∧
    (s.step (.run 0)).cur = (lastTok (s.step (.run 0)).ch.log).map s.own := by
  have hl : 0 < s.ch.posted.length := List.length_pos_iff.2 hp
  simp only [St.step, hu, Bool.false_eq_true, if_false, hc, hl, if_true]
  exact ⟨trivial, trivial, trivial, trivial, trivial, by rw [next_eq]⟩

theorem PV.ub {c : Option Co} (h : PV s c cap b rq wq posted) : s.ch.ub = false := by
  obtain ⟨o, v⟩ := h.v; exact v.pl.ub

theorem PV.push {i n : Nat} (h : PV s (some (.p i)) cap b [] wq posted) (hb : b < cap) (ht : s.todo i = n + 1) :
    PV (s.step .go) (some (.p i)) cap (b + 1) [] wq posted ∧ Kp s (s.step .go) ∧ (s.step .go).todo = upd s.todo i n := by
  obtain ⟨o, v⟩ := h.v
  obtain ⟨e1, e2, e3, e4, _, e5⟩ := go_p h.ub h.cur ht
  obtain ⟨v', n'⟩ := v.push (by rw [h.cap]; exact hb)
  rw [← e1] at v' n'
  refine ⟨⟨⟨_, v'⟩, ?_, n'.cap.trans h.cap⟩, ⟨by rw [n'.w]; omega, fun j hj => ?_, e4⟩, e3⟩
  · rw [e5, v'.last]
    simp [St.own, e2, upd_apply]
  · have : j ≠ s.ch.nextW := by omega
    rw [e2]; simp [upd_apply, this]

theorem PV.pushWake {i n r : Nat} (h : PV s (some (.p i)) cap b (r :: rq) [] posted) (hb : b < cap)
    (ht : s.todo i = n + 1) :
    PV (s.step .go) (some (.p i)) cap (b + 1) rq [] (posted ++ [.r r]) ∧ Kp s (s.step .go) ∧
      (s.step .go).todo = upd s.todo i n := by
  obtain ⟨o, v⟩ := h.v
  obtain ⟨e1, e2, e3, e4, _, e5⟩ := go_p h.ub h.cur ht
  obtain ⟨v', n'⟩ := v.pushWake (by rw [h.cap]; exact hb)
  rw [← e1] at v' n'
  refine ⟨⟨⟨_, v'⟩, ?_, n'.cap.trans h.cap⟩, ⟨by rw [n'.w]; omega, fun j hj => ?_, e4⟩, e3⟩
  · rw [e5, v'.last]
    simp [St.own, e2, upd_apply]
  · have : j ≠ s.ch.nextW := by omega
    rw [e2]; simp [upd_apply, this]

theorem PV.wait {i n : Nat} (h : PV s (some (.p i)) cap cap [] wq posted) (ht : s.todo i = n + 1) :
    PV (s.step .go) none cap cap [] (wq ++ [s.ch.nextW]) posted ∧ Kp s (s.step .go) ∧
      (s.step .go).todo = upd s.todo i n ∧ (s.step .go).ownW s.ch.nextW = i ∧ s.ch.nextW < (s.step .go).ch.nextW := by
  obtain ⟨o, v⟩ := h.v
  obtain ⟨e1, e2, e3, e4, _, e5⟩ := go_p h.ub h.cur ht
  obtain ⟨v', n'⟩ := v.wait h.cap.symm
  rw [← e1] at v' n'
  refine ⟨⟨⟨_, v'⟩, ?_, n'.cap.trans h.cap⟩, ⟨by rw [n'.w]; omega, fun j hj => ?_, e4⟩, e3, ?_, by rw [n'.w]; omega⟩
  · rw [e5, v'.last]; rfl
  · have : j ≠ s.ch.nextW := by omega
    rw [e2]; simp [upd_apply, this]
  · rw [e2]; simp [upd_apply]

/-- A producer that has nothing left ends. -/
theorem PV.ends {i : Nat} (h : PV s (some (.p i)) cap b rq wq posted) (ht : s.todo i = 0) :
    PV (s.step .go) none cap b rq wq posted ∧ Kp s (s.step .go) ∧ (s.step .go).todo = s.todo := by
  have e : s.step .go = { s with cur := none } := by rw [go_eq h.ub h.cur]; simp [St.goOn, ht]
  rw [e]
  exact ⟨⟨h.v, rfl, h.cap⟩, ⟨Nat.le_refl _, fun _ _ => rfl, rfl⟩, rfl⟩

theorem PV.take {i : Nat} (h : PV s (some (.w i)) cap (b + 1) rq [] posted) :
    PV (s.step .go) (some (.w i)) cap b rq [] posted ∧ Kp s (s.step .go) ∧ (s.step .go).todo = s.todo := by
  obtain ⟨o, v⟩ := h.v
  obtain ⟨e1, e2, e3, e4, e6, e5⟩ := go_w h.ub h.cur
  obtain ⟨v', n'⟩ := v.take
  rw [← e1] at v' n'
  refine ⟨⟨⟨_, v'⟩, ?_, n'.cap.trans h.cap⟩, ⟨by rw [n'.w]; omega, fun j hj => by rw [e6], e4⟩, e3⟩
  rw [e5, v'.last]
  simp [St.own, e2, upd_apply]

theorem PV.takeWake {i w : Nat} (h : PV s (some (.w i)) cap (b + 1) [] (w :: wq) posted) :
    PV (s.step .go) (some (.w i)) cap b [] wq (posted ++ [.w w]) ∧ Kp s (s.step .go) ∧ (s.step .go).todo = s.todo := by
  obtain ⟨o, v⟩ := h.v
  obtain ⟨e1, e2, e3, e4, e6, e5⟩ := go_w h.ub h.cur
  obtain ⟨v', n'⟩ := v.takeWake
  rw [← e1] at v' n'
  refine ⟨⟨⟨_, v'⟩, ?_, n'.cap.trans h.cap⟩, ⟨by rw [n'.w]; omega, fun j hj => by rw [e6], e4⟩, e3⟩
  rw [e5, v'.last]
  simp [St.own, e2, upd_apply]

theorem PV.sleep {i : Nat} (h : PV s (some (.w i)) cap 0 rq [] posted) :
    PV (s.step .go) none cap 0 (rq ++ [s.ch.nextR]) [] posted ∧ Kp s (s.step .go) ∧ (s.step .go).todo = s.todo := by
  obtain ⟨o, v⟩ := h.v
  obtain ⟨e1, e2, e3, e4, e6, e5⟩ := go_w h.ub h.cur
  obtain ⟨v', n'⟩ := v.sleep
  rw [← e1] at v' n'
  refine ⟨⟨⟨_, v'⟩, ?_, n'.cap.trans h.cap⟩, ⟨by rw [n'.w]; omega, fun j hj => by rw [e6], e4⟩, e3⟩
  rw [e5, v'.last]; rfl

theorem PV.goes {a r : Nat} (h : PV s none cap b (r :: rq) [] (.w a :: posted)) (hb : b < cap) :
    PV (s.step (.run 0)) (some (.p (s.ownW a))) cap (b + 1) rq [] (posted ++ [.r r]) ∧ Kp s (s.step (.run 0)) ∧
      (s.step (.run 0)).todo = s.todo := by
  obtain ⟨o, v⟩ := h.v
  obtain ⟨e1, e3, e4, e6, _, e5⟩ := go_run h.ub h.cur (by rw [v.posted]; simp)
  obtain ⟨v', n'⟩ := v.goes (by rw [h.cap]; exact hb)
  rw [← e1] at v' n'
  refine ⟨⟨⟨_, v'⟩, ?_, n'.cap.trans h.cap⟩, ⟨by rw [n'.w]; omega, fun j hj => by rw [e6], e4⟩, e3⟩
  rw [e5, v'.last]; rfl

theorem PV.gets {a : Nat} (h : PV s none cap (b + 1) rq [] (.r a :: posted)) :
    PV (s.step (.run 0)) (some (.w (s.ownR a))) cap b rq [] posted ∧ Kp s (s.step (.run 0)) ∧
      (s.step (.run 0)).todo = s.todo := by
  obtain ⟨o, v⟩ := h.v
  obtain ⟨e1, e3, e4, e6, _, e5⟩ := go_run h.ub h.cur (by rw [v.posted]; simp)
  obtain ⟨v', n'⟩ := v.gets
  rw [← e1] at v' n'
  refine ⟨⟨⟨_, v'⟩, ?_, n'.cap.trans h.cap⟩, ⟨by rw [n'.w]; omega, fun j hj => by rw [e6], e4⟩, e3⟩
  rw [e5, v'.last]; rfl

theorem PV.under {a : Nat} (h : PV s none cap 0 rq wq (.r a :: posted)) : (s.step (.run 0)).ch.ub = true := by
  obtain ⟨o, v⟩ := h.v
  rw [(go_run h.ub h.cur (by rw [v.posted]; simp)).1]
  exact v.under

theorem PV.over {a : Nat} (h : PV s none cap cap rq wq (.w a :: posted)) : (s.step (.run 0)).ch.asserted = true := by
  obtain ⟨o, v⟩ := h.v
  rw [(go_run h.ub h.cur (by rw [v.posted]; simp)).1]
  exact v.over h.cap.symm

theorem PV.init (cap : Nat) : PV (St.init cap) none cap 0 [] [] [] :=
  ⟨⟨none, Pl.init cap, rfl, rfl, rfl, rfl, fun _ => rfl, fun _ => rfl, rfl⟩, rfl, rfl⟩

theorem PV.worker (h : PV s none cap b rq wq posted) :
    PV (s.step .worker) (some (.w s.nw)) cap b rq wq posted ∧ Kp s (s.step .worker) ∧ (s.step .worker).todo = s.todo := by
  have e : s.step .worker = { s with cur := some (.w s.nw), nw := s.nw + 1 } := by simp [St.step, h.ub, h.cur]
  rw [e]
  exact ⟨⟨h.v, rfl, h.cap⟩, ⟨Nat.le_refl _, fun _ _ => rfl, rfl⟩, rfl⟩

theorem PV.producer (h : PV s none cap b rq wq posted) (n : Nat) :
    PV (s.step (.producer n)) (some (.p s.np)) cap b rq wq posted ∧
      (s.step (.producer n)).todo = upd s.todo s.np n ∧ (s.step (.producer n)).np = s.np + 1 ∧
      (s.step (.producer n)).ch = s.ch ∧ (s.step (.producer n)).ownW = s.ownW := by
  have e : s.step (.producer n) = { s with cur := some (.p s.np), np := s.np + 1, todo := upd s.todo s.np n } := by
    simp [St.step, h.ub, h.cur]
  rw [e]
  exact ⟨⟨h.v, rfl, h.cap⟩, rfl, rfl, rfl, rfl⟩

/-- A producer fills the buffer … -/
theorem PV.fill (n : Nat) : ∀ {s : St} {i b m : Nat}, PV s (some (.p i)) cap b [] wq posted → b + n ≤ cap →
    s.todo i = m + n → let s' := s.steps (List.replicate n .go)
    PV s' (some (.p i)) cap (b + n) [] wq posted ∧ Kp s s' ∧ s'.todo i = m ∧ ∀ k, k ≠ i → s'.todo k = s.todo k := by
  induction n with
  | zero => intro s i b m h _ ht; exact ⟨h, .refl s, ht, fun _ _ => rfl⟩
  | succ n ih =>
    intro s i b m h hb ht
    obtain ⟨h1, k1, t1⟩ := h.push (n := m + n) (by omega) ht
    have := ih (b := b + 1) (m := m) h1 (by omega) (by rw [t1]; simp [upd_apply])
    dsimp only at this ⊢
    rw [show s.steps (List.replicate (n + 1) .go) = (s.step .go).steps (List.replicate n .go) from rfl]
    obtain ⟨h2, k2, t2, o2⟩ := this
    refine ⟨by rw [show b + (n + 1) = b + 1 + n by omega]; exact h2, k1.trans k2, t2, fun k hk => ?_⟩
    rw [o2 k hk, t1]; simp [upd_apply, hk]

/-- … and a worker empties it. -/
theorem PV.drain (n : Nat) : ∀ {s : St} {i b : Nat}, PV s (some (.w i)) cap (b + n) rq [] posted →
    let s' := s.steps (List.replicate n .go)
    PV s' (some (.w i)) cap b rq [] posted ∧ Kp s s' ∧ s'.todo = s.todo := by
  induction n with
  | zero => intro s i b h; exact ⟨h, .refl s, rfl⟩
  | succ n ih =>
    intro s i b h
    obtain ⟨h1, k1, t1⟩ := h.take (b := b + n)
    have := ih (b := b) h1
    dsimp only at this ⊢
    rw [show s.steps (List.replicate (n + 1) .go) = (s.step .go).steps (List.replicate n .go) from rfl]
    obtain ⟨h2, k2, t2⟩ := this
    exact ⟨h2, k1.trans k2, t2.trans t1⟩

/-- Two workers and a producer with two jobs, limit at least 2: both workers are woken, the first takes both jobs. -/
def twoWorkers : List Ev := [.worker, .go, .worker, .go, .producer 2, .go, .go, .go] ++ [.run 0, .go, .go, .run 0]

/-- The same with limit 1: the second job is handed to the second worker while the first is on its way to the first;
the second worker takes both. -/
def twoWorkers1 : List Ev := [.worker, .go, .worker, .go, .producer 2, .go, .go, .go, .go] ++ [.run 0]

/-- Two producers and a worker, limit `m + 2`: the first producer fills the buffer and both wait; the worker empties it
and both are woken; the first fills the buffer again. -/
def twoProducers (m : Nat) : List Ev :=
  ([.producer (2 * (m + 2))] ++ List.replicate (m + 2) .go ++ [.go, .producer 1, .go, .worker, .go, .go] ++
    List.replicate m .go ++ [.go]) ++ ([.run 0] ++ List.replicate (m + 1) .go ++ [.go, .run 0])

/-- Two producers and a worker, limit 1. -/
def twoProducers1 : List Ev := [.producer 2, .go, .go, .producer 2, .go, .worker, .go, .go, .go, .go] ++ [.run 0]

theorem steps_append (s : St) (a b : List Ev) : s.steps (a ++ b) = (s.steps a).steps b := by
  simp [St.steps, List.foldl_append]

theorem steps_cons (s : St) (e : Ev) (es : List Ev) : s.steps (e :: es) = (s.step e).steps es := rfl
theorem steps_nil (s : St) : s.steps [] = s := rfl

theorem bad_workers {cap : Nat} (hc : 2 ≤ cap) : (exec cap twoWorkers).ch.ub = true := by
  obtain ⟨h1, -, -⟩ := (PV.init cap).worker
  obtain ⟨h2, -, -⟩ := h1.sleep
  obtain ⟨h3, -, -⟩ := h2.worker
  obtain ⟨h4, -, -⟩ := h3.sleep
  obtain ⟨h5, t5, -⟩ := h4.producer 2
  obtain ⟨h6, -, t6⟩ := h5.pushWake (n := 1) (by omega) (by rw [t5]; simp [upd_apply])
  obtain ⟨h7, -, t7⟩ := h6.pushWake (n := 0) (by omega) (by rw [t6]; simp [upd_apply])
  obtain ⟨h8, -, -⟩ := h7.ends (by rw [t7]; simp [upd_apply])
  obtain ⟨h9, -, -⟩ := PV.gets (b := 1) h8
  obtain ⟨h10, -, -⟩ := PV.take (b := 0) h9
  obtain ⟨h11, -, -⟩ := h10.sleep
  unfold exec twoWorkers
  simp only [steps_append, steps_cons, steps_nil]
  exact h11.under

theorem bad_producers (m : Nat) : (exec (m + 2) (twoProducers m)).ch.asserted = true := by
  obtain ⟨h1, t1, p1, c1, o1⟩ := (PV.init (m + 2)).producer (2 * (m + 2))
  have hf := PV.fill (m + 2) (m := m + 2) h1 (by omega) (by rw [t1]; simp [upd_apply]; omega)
  dsimp only at hf
  obtain ⟨h2, k2, t2, o2⟩ := hf
  rw [Nat.zero_add] at h2
  obtain ⟨h3, k3, t3, w3, l3⟩ := h2.wait (n := m + 1) t2
  obtain ⟨h4, t4, p4, c4, o4⟩ := h3.producer 1
  obtain ⟨h5, k5, t5, w5, l5⟩ := h4.wait (n := 0) (by rw [t4]; simp [upd_apply])
  obtain ⟨h6, k6, t6⟩ := h5.worker
  obtain ⟨h7, k7, t7⟩ := PV.takeWake (b := m + 1) h6
  obtain ⟨h8, k8, t8⟩ := PV.takeWake (b := m) h7
  have hd := PV.drain m (b := 0) (by rw [Nat.zero_add]; exact h8)
  dsimp only at hd
  obtain ⟨h9, k9, t9⟩ := hd
  obtain ⟨h10, k10, t10⟩ := h9.sleep
  obtain ⟨h11, k11, t11⟩ := PV.goes h10 (by omega)
  have np0 : (St.init (m + 2)).np = 0 := rfl
  have np3 : ((((St.init (m + 2)).step (.producer (2 * (m + 2)))).steps (List.replicate (m + 2) .go)).step .go).np = 1 := by
    rw [k3.np, k2.np, p1, np0]
  have kk := ((((k5.trans k6).trans k7).trans k8).trans k9).trans k10
  have own := kk.ownW _ (by rw [c4]; exact l3)
  rw [o4, w3, np0] at own
  rw [own] at h11
  have td := congrFun t11 0
  rw [t10, t9, t8, t7, t6, t5, t4, t3, np3, np0] at td
  simp only [upd_apply] at td
  have hf2 := PV.fill (m + 1) (m := 0) h11 (by omega) (by rw [td]; simp)
  dsimp only at hf2
  obtain ⟨h12, k12, t12, o12⟩ := hf2
  obtain ⟨h13, -, -⟩ := h12.ends t12
  rw [show 0 + 1 + (m + 1) = m + 2 by omega] at h13
  have fin := h13.over
  unfold exec twoProducers
  simp only [steps_append, steps_cons, steps_nil]
  exact fin

end Cobalt.Pool
