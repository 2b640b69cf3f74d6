import Verif.Loop.Spec
/-! Helper lemmas for `Props`: the states the program goes through. -/
namespace Cobalt.Loop
open Cobalt.Chan (Ev Obs RRes Tok)

/-- What there is to know about a state of the program. -/
structure V where
  k : Nat := 0
  buf : List Nat := []
  closed : Bool := false
  rq : List Nat := []
  wq : List Nat := []
  posted : List Tok := []
  /-- the value the posted read was given directly -/
  dir : Option Nat := none
  turn : Turn := .prod
  started : Bool := false
  seen : List Nat := []
  nw : Nat := 0

structure Sees (c n : Nat) (d : Bool) (x : St) (v : V) : Prop where
  ub : x.s.ub = false
  as : x.s.asserted = false
  cap : x.s.cap = c
  hn : x.n = n
  hd : x.drain = d
  k : x.k = v.k
  buf : x.s.buf = v.buf
  closed : x.s.closed = v.closed
  rq : x.s.rq = v.rq
  wq : x.s.wq = v.wq
  posted : x.s.posted = v.posted
  turn : x.turn = v.turn
  started : x.started = v.started
  seen : x.seen = v.seen
  nw : x.s.nextW = v.nw
  qr : ∀ i ∈ v.rq, (x.s.R i).waiting = true ∧ (x.s.R i).direct = none ∧ (x.s.R i).cancelled = false ∧ i < x.s.nextR
  qw : ∀ i ∈ v.wq, (x.s.W i).waiting = true ∧ (x.s.W i).direct = false ∧ (x.s.W i).cancelled = false ∧
    (x.s.W i).closedF = false ∧ (x.s.W i).txn = false ∧ i < x.s.nextW
  pr : ∀ i, Tok.r i ∈ v.posted → (x.s.R i).direct = v.dir ∧ (x.s.R i).cancelled = false ∧ i < x.s.nextR
  pw : ∀ i, Tok.w i ∈ v.posted → (x.s.W i).direct = false ∧ (x.s.W i).cancelled = false ∧ (x.s.W i).closedF = false ∧
    i < x.s.nextW

theorem Sees.init (c n : Nat) (d : Bool) : Sees c n d (St.init c n d) {} := by
  constructor <;> simp [St.init, Chan.St.init]

theorem upd_app {α : Type} (f : Nat → α) (i : Nat) (x : α) (j : Nat) :
    Chan.upd f i x j = if j = i then x else f j := rfl

theorem after_one (x : St) (s : Chan.St) (l : List Obs) (h : s.log = x.s.log ++ l) :
    x.after s = l.foldl St.note { x with s, turn := .exec } := by
  unfold St.after
  rw [h, List.drop_left]

/-- Writing to a buffer that is not full. -/
theorem Sees.push {c n : Nat} {d : Bool} {x : St} {v : V} (h : Sees c n d x v) (ht : v.turn = .prod) (hk : v.k < n)
    (hc : v.closed = false) (hl : v.buf.length < c) (hr : v.rq = []) :
    Sees c n d x.step { v with k := v.k + 1, buf := v.buf ++ [v.nw], nw := v.nw + 1 } := by
  obtain ⟨ub, as, cap, hn, hd, k, buf, closed, rq, wq, posted, turn, started, seen, nw, qr, qw, pr, pw⟩ := h
  have e : (x.s.step .mkW).step (.awaitW x.s.nextW true false []) =
      { x.s with W := Chan.upd (Chan.upd x.s.W x.s.nextW { status := .fresh }) x.s.nextW
                  { status := .done }
                 nextW := x.s.nextW + 1
                 log := x.s.log ++ [.startW x.s.nextW] ++ [.doneW x.s.nextW .ok]
                 buf := x.s.buf ++ [x.s.nextW] } := by
    have h1 : ¬ c = 0 := by omega
    have h2 : ¬ v.buf.length = c := by omega
    simp [Chan.St.step, ub, Chan.St.awaitW, upd_app, Chan.St.writeReady, buf, cap, h2, Chan.St.resumeW, closed, hc,
      Chan.St.endW, Chan.pushBack, h1, Chan.St.wakeReader, rq, hr, as]
  have e2 : x.step = { x with k := x.k + 1, turn := .prod, s := (x.s.step .mkW).step (.awaitW x.s.nextW true false []) } := by
    unfold St.step
    rw [turn, ht]
    dsimp only
    rw [k, hn, if_pos hk]
    unfold St.write
    rw [after_one _ _ [.startW x.s.nextW, .doneW x.s.nextW .ok] (by rw [e]; simp)]
    simp [St.note, k, hn]
  rw [e2, e]
  constructor <;> dsimp only <;> try assumption
  all_goals try grind [upd_app]

/-- Writing to a full buffer while nobody reads. -/
theorem Sees.block {c n : Nat} {d : Bool} {x : St} {v : V} (h : Sees c n d x v) (ht : v.turn = .prod) (hk : v.k < n)
    (hc : v.closed = false) (hl : v.buf.length = c) (hr : v.rq = []) (hw : v.wq = []) :
    Sees c n d x.step { v with wq := [v.nw], nw := v.nw + 1, turn := .exec } := by
  obtain ⟨ub, as, cap, hn, hd, k, buf, closed, rq, wq, posted, turn, started, seen, nw, qr, qw, pr, pw⟩ := h
  have e : (x.s.step .mkW).step (.awaitW x.s.nextW true false []) =
      { x.s with W := Chan.upd (Chan.upd x.s.W x.s.nextW { status := .fresh }) x.s.nextW
                  { status := .susp, waiting := true, slot := true }
                 nextW := x.s.nextW + 1
                 log := x.s.log ++ [.startW x.s.nextW]
                 wq := [x.s.nextW] } := by
    simp [Chan.St.step, ub, Chan.St.awaitW, upd_app, Chan.St.writeReady, buf, cap, hl, closed, hc, rq, hr, wq, hw,
      Chan.St.queueW]
  have e2 : x.step = { x with turn := .exec, s := (x.s.step .mkW).step (.awaitW x.s.nextW true false []) } := by
    unfold St.step
    rw [turn, ht]
    dsimp only
    rw [k, hn, if_pos hk]
    unfold St.write
    rw [after_one _ _ [.startW x.s.nextW] (by rw [e])]
    simp [St.note, k, hn]
  rw [e2, e]
  constructor <;> dsimp only <;> try assumption
  all_goals try grind [upd_app]

/-- The producer closes the channel; nobody waits. -/
theorem Sees.close {c n : Nat} {d : Bool} {x : St} {v : V} (h : Sees c n d x v) (ht : v.turn = .prod) (hk : v.k = n)
    (hr : v.rq = []) (hw : v.wq = []) :
    Sees c n d x.step { v with closed := true, turn := .exec } := by
  obtain ⟨ub, as, cap, hn, hd, k, buf, closed, rq, wq, posted, turn, started, seen, nw, qr, qw, pr, pw⟩ := h
  have e : x.s.step .close = { x.s with closed := true } := by
    simp [Chan.St.step, ub, Chan.St.close, rq, hr, wq, hw]
  have e2 : x.step = { x with turn := .exec, s := { x.s with closed := true } } := by
    unfold St.step
    rw [turn, ht]
    dsimp only
    rw [k, hn, if_neg (by omega), e]
  rw [e2]
  constructor <;> dsimp only <;> first | assumption | rfl

/-- `co_main` goes on. -/
theorem Sees.start {c n : Nat} {d : Bool} {x : St} {v : V} (h : Sees c n d x v) (ht : v.turn = .exec)
    (hs : v.started = false) : Sees c n d x.step { v with started := true, turn := .cons } := by
  obtain ⟨ub, as, cap, hn, hd, k, buf, closed, rq, wq, posted, turn, started, seen, nw, qr, qw, pr, pw⟩ := h
  have e2 : x.step = { x with started := true, turn := .cons } := by
    unfold St.step
    rw [turn, ht]
    dsimp only
    rw [started, hs]
    rfl
  rw [e2]
  constructor <;> dsimp only <;> first | assumption | rfl

/-- The loop is left. -/
theorem Sees.leave {c n : Nat} {d : Bool} {x : St} {v : V} (h : Sees c n d x v) (ht : v.turn = .cons)
    (hc : v.closed = true) (hd' : d = false) : Sees c n d x.step { v with turn := .finished } := by
  obtain ⟨ub, as, cap, hn, hd, k, buf, closed, rq, wq, posted, turn, started, seen, nw, qr, qw, pr, pw⟩ := h
  have e2 : x.step = { x with turn := .finished } := by
    unfold St.step
    rw [turn, ht]
    dsimp only
    rw [closed, hc, hd, hd']
    rfl
  rw [e2]
  constructor <;> dsimp only <;> first | assumption | rfl

theorem step_read {c n : Nat} {d : Bool} {x : St} {v : V} (h : Sees c n d x v) (ht : v.turn = .cons)
    (hc : v.closed = false ∨ d = true) : x.step = x.read := by
  unfold St.step
  rw [h.turn, ht]
  dsimp only
  rw [h.closed, h.hd, if_neg]
  rcases hc with hc | hc <;> simp [hc]

/-- Reading from a closed and empty channel. -/
theorem Sees.broken {c n : Nat} {d : Bool} {x : St} {v : V} (h : Sees c n d x v) (ht : v.turn = .cons)
    (hc : v.closed = true) (hd' : d = true) (hb : v.buf = []) : Sees c n d x.step { v with turn := .thrown } := by
  rw [step_read h ht (Or.inr hd')]
  obtain ⟨ub, as, cap, hn, hd, k, buf, closed, rq, wq, posted, turn, started, seen, nw, qr, qw, pr, pw⟩ := h
  have e : (x.s.step .mkR).step (.awaitR x.s.nextR true false []) =
      { x.s with R := Chan.upd (Chan.upd x.s.R x.s.nextR { status := .fresh }) x.s.nextR { status := .done }
                 nextR := x.s.nextR + 1
                 log := x.s.log ++ [.startR x.s.nextR] ++ [.doneR x.s.nextR .brokenPipe] } := by
    simp [Chan.St.step, ub, Chan.St.awaitR, upd_app, Chan.St.readReady, buf, hb, Chan.St.resumeR, closed, hc,
      Chan.St.endR]
  have e2 : x.read = { x with turn := .thrown, s := (x.s.step .mkR).step (.awaitR x.s.nextR true false []) } := by
    unfold St.read
    rw [after_one _ _ [.startR x.s.nextR, .doneR x.s.nextR .brokenPipe] (by rw [e]; simp)]
    simp [St.note]
  rw [e2, e]
  constructor <;> dsimp only <;> try assumption
  all_goals try grind [upd_app]

/-- Reading from a channel that has nothing. -/
theorem Sees.wait {c n : Nat} {d : Bool} {x : St} {v : V} (h : Sees c n d x v) (ht : v.turn = .cons)
    (hc : v.closed = false) (hb : v.buf = []) (hw : v.wq = []) (hr : v.rq = []) :
    ∃ i, (∀ j, Tok.r j ∈ v.posted → j ≠ i) ∧ Sees c n d x.step { v with turn := .exec, rq := [i] } := by
  rw [step_read h ht (Or.inl hc)]
  obtain ⟨ub, as, cap, hn, hd, k, buf, closed, rq, wq, posted, turn, started, seen, nw, qr, qw, pr, pw⟩ := h
  refine ⟨x.s.nextR, fun j hj => by have := (pr j hj).2.2; omega, ?_⟩
  have e : (x.s.step .mkR).step (.awaitR x.s.nextR true false []) =
      { x.s with R := Chan.upd (Chan.upd x.s.R x.s.nextR { status := .fresh }) x.s.nextR
                  { status := .susp, waiting := true, slot := true }
                 nextR := x.s.nextR + 1
                 log := x.s.log ++ [.startR x.s.nextR]
                 rq := [x.s.nextR] } := by
    simp [Chan.St.step, ub, Chan.St.awaitR, upd_app, Chan.St.readReady, buf, hb, closed, hc, wq, hw, rq, hr,
      Chan.St.queueR]
  have e2 : x.read = { x with turn := .exec, s := (x.s.step .mkR).step (.awaitR x.s.nextR true false []) } := by
    unfold St.read
    rw [after_one _ _ [.startR x.s.nextR] (by rw [e])]
    simp [St.note]
  rw [e2, e]
  constructor <;> dsimp only <;> try assumption
  all_goals try grind [upd_app]

/-- Reading from a buffer while no writer waits. -/
theorem Sees.pop {c n : Nat} {d : Bool} {x : St} {v : V} (h : Sees c n d x v) (ht : v.turn = .cons)
    (hc : v.closed = false ∨ d = true) {b : Nat} {bs : List Nat} (hb : v.buf = b :: bs) (hw : v.wq = []) :
    Sees c n d x.step { v with buf := bs, seen := v.seen ++ [b] } := by
  rw [step_read h ht hc]
  obtain ⟨ub, as, cap, hn, hd, k, buf, closed, rq, wq, posted, turn, started, seen, nw, qr, qw, pr, pw⟩ := h
  have e : (x.s.step .mkR).step (.awaitR x.s.nextR true false []) =
      { x.s with R := Chan.upd (Chan.upd x.s.R x.s.nextR { status := .fresh }) x.s.nextR { status := .done }
                 nextR := x.s.nextR + 1
                 log := x.s.log ++ [.startR x.s.nextR] ++ [.doneR x.s.nextR (.value b)]
                 buf := bs } := by
    simp [Chan.St.step, ub, Chan.St.awaitR, upd_app, Chan.St.readReady, buf, hb, Chan.St.resumeR,
      Chan.St.endR, Chan.St.wakeWriter, wq, hw]
  have e2 : x.read = { x with turn := .cons, seen := x.seen ++ [b]
                              s := (x.s.step .mkR).step (.awaitR x.s.nextR true false []) } := by
    unfold St.read
    rw [after_one _ _ [.startR x.s.nextR, .doneR x.s.nextR (.value b)] (by rw [e]; simp)]
    simp [St.note]
  rw [e2, e]
  constructor <;> dsimp only <;> try assumption
  all_goals try grind [upd_app]

/-- Reading from a full buffer while a writer waits. -/
theorem Sees.popWake {c n : Nat} {d : Bool} {x : St} {v : V} (h : Sees c n d x v) (ht : v.turn = .cons)
    (hc : v.closed = false) {b : Nat} {bs : List Nat} (hb : v.buf = b :: bs) (hl : v.buf.length = c) {w : Nat}
    (hw : v.wq = [w]) (hr : v.rq = []) (hp : v.posted = []) :
    Sees c n d x.step { v with buf := bs, seen := v.seen ++ [b], wq := [], posted := [.w w] } := by
  rw [step_read h ht (Or.inl hc)]
  obtain ⟨ub, as, cap, hn, hd, k, buf, closed, rq, wq, posted, turn, started, seen, nw, qr, qw, pr, pw⟩ := h
  obtain ⟨q1, q2, q3, q4, q5, q6⟩ := qw w (by rw [hw]; simp)
  have e : (x.s.step .mkR).step (.awaitR x.s.nextR true false []) =
      { x.s with R := Chan.upd (Chan.upd x.s.R x.s.nextR { status := .fresh }) x.s.nextR { status := .done }
                 W := Chan.upd x.s.W w { x.s.W w with waiting := false }
                 nextR := x.s.nextR + 1
                 log := x.s.log ++ [.startR x.s.nextR] ++ [.doneR x.s.nextR (.value b)]
                 buf := bs
                 wq := []
                 posted := [.w w] } := by
    have h1 : ¬ bs.length = c := by rw [hb] at hl; simp at hl; omega
    simp [Chan.St.step, ub, Chan.St.awaitR, upd_app, Chan.St.readReady, buf, hb, Chan.St.resumeR,
      Chan.St.endR, Chan.St.wakeWriter, Chan.St.writeReady, wq, hw, rq, hr, as, cap, h1, q1, posted, hp]
  have e2 : x.read = { x with turn := .cons, seen := x.seen ++ [b]
                              s := (x.s.step .mkR).step (.awaitR x.s.nextR true false []) } := by
    unfold St.read
    rw [after_one _ _ [.startR x.s.nextR, .doneR x.s.nextR (.value b)] (by rw [e]; simp)]
    simp [St.note]
  rw [e2, e]
  constructor <;> dsimp only <;> try assumption
  all_goals try grind [upd_app]

/-- Reading from a channel without a buffer while a writer waits: the writer goes on. -/
theorem Sees.meet {n : Nat} {d : Bool} {x : St} {v : V} (h : Sees 0 n d x v) (ht : v.turn = .cons)
    (hc : v.closed = false) (hb : v.buf = []) {w : Nat} (hw : v.wq = [w]) (hr : v.rq = []) (hp : v.posted = []) :
    ∃ i, Sees 0 n d x.step { v with k := v.k + 1, wq := [], posted := [.r i], dir := some w, turn := .prod } := by
  rw [step_read h ht (Or.inl hc)]
  obtain ⟨ub, as, cap, hn, hd, k, buf, closed, rq, wq, posted, turn, started, seen, nw, qr, qw, pr, pw⟩ := h
  obtain ⟨q1, q2, q3, q4, q5, q6⟩ := qw w (by rw [hw]; simp)
  refine ⟨x.s.nextR, ?_⟩
  have e : (x.s.step .mkR).step (.awaitR x.s.nextR true false []) =
      { x.s with R := Chan.upd (Chan.upd (Chan.upd x.s.R x.s.nextR { status := .fresh }) x.s.nextR
                        { status := .susp, waiting := true, direct := some w }) x.s.nextR
                        { status := .susp, direct := some w }
                 W := Chan.upd (Chan.upd (Chan.upd x.s.W w { x.s.W w with direct := true }) w
                        { x.s.W w with direct := true, waiting := false }) w
                        { x.s.W w with direct := true, status := .done, slot := false, waiting := false }
                 nextR := x.s.nextR + 1
                 log := x.s.log ++ [.startR x.s.nextR] ++ [.doneW w .ok]
                 wq := []
                 posted := [.r x.s.nextR] } := by
    simp [Chan.St.step, ub, Chan.St.awaitR, upd_app, Chan.St.readReady, buf, hb, closed, hc, wq, hw, q1, q5,
      Chan.St.takeFrom, Chan.St.handR, Chan.St.resumeW, q3, q4, Chan.St.endW, Chan.St.wakeReader, rq, hr, posted, hp]
  have e2 : x.read = { x with turn := .prod, k := x.k + 1
                              s := (x.s.step .mkR).step (.awaitR x.s.nextR true false []) } := by
    unfold St.read
    rw [after_one _ _ [.startR x.s.nextR, .doneW w .ok] (by rw [e]; simp)]
    simp [St.note]
  rw [e2, e]
  constructor <;> dsimp only <;> try assumption
  all_goals try grind [upd_app]

theorem step_run {c n : Nat} {d : Bool} {x : St} {v : V} (h : Sees c n d x v) (ht : v.turn = .exec)
    (hs : v.started = true) {t : Tok} (hp : v.posted = [t]) : x.step = x.after (x.s.step (.run 0)) := by
  unfold St.step
  rw [h.turn, ht]
  dsimp only
  rw [h.started, hs, if_pos rfl, h.posted, hp]

/-- A read that was given its value is resumed; the channel has no buffer. -/
theorem Sees.runDirect {n : Nat} {d : Bool} {x : St} {v : V} (h : Sees 0 n d x v) (ht : v.turn = .exec)
    (hs : v.started = true) (hb : v.buf = []) {i w : Nat} (hp : v.posted = [.r i]) (hdir : v.dir = some w)
    (hr : v.rq = []) (hcw : v.closed = true → v.wq = []) :
    Sees 0 n d x.step { v with posted := [], seen := v.seen ++ [w], turn := .cons } := by
  rw [step_run h ht hs hp]
  obtain ⟨ub, as, cap, hn, hd, k, buf, closed, rq, wq, posted, turn, started, seen, nw, qr, qw, pr, pw⟩ := h
  obtain ⟨p1, p2, p3⟩ := pr i (by rw [hp]; simp)
  have e : x.s.step (.run 0) =
      { x.s with R := Chan.upd x.s.R i { x.s.R i with status := .done, slot := false, waiting := false }
                 log := x.s.log ++ [.doneR i (.value w)]
                 posted := [] } := by
    have e0 : x.s.step (.run 0) = { x.s with posted := [] }.resumeR i := by
      simp [Chan.St.step, ub, Chan.St.run, posted, hp]
    rw [e0]
    unfold Chan.St.resumeR
    simp only [buf, hb, p1, hdir, p2, Option.isNone_some, Bool.and_false, Bool.false_eq_true, if_false]
    unfold Chan.St.wakeWriter Chan.St.endR
    dsimp only
    rw [wq]
    cases hw : v.wq with
    | nil => simp [p1, p2, hdir]
    | cons y ys =>
      have hcl : v.closed = false := by
        cases hq : v.closed with
        | false => rfl
        | true => have := hcw hq; rw [hw] at this; cases this
      simp [Chan.St.writeReady, buf, hb, cap, closed, hcl, rq, hr, as, p1, p2, hdir]
  rw [after_one _ _ [.doneR i (.value w)] (by rw [e])]
  rw [e]
  simp only [List.foldl_cons, List.foldl_nil, St.note]
  constructor <;> dsimp only <;> try assumption
  all_goals try grind [upd_app]

/-- A read that was woken takes from the buffer; a writer waits and the buffer is full, or none waits. -/
theorem Sees.runRead {c n : Nat} {d : Bool} {x : St} {v : V} (h : Sees c n d x v) (ht : v.turn = .exec)
    (hs : v.started = true) {b : Nat} {bs : List Nat} (hb : v.buf = b :: bs) {i : Nat} (hp : v.posted = [.r i])
    (hdir : v.dir = none) (hw : v.wq = []) (hr : v.rq = []) :
    Sees c n d x.step { v with posted := [], seen := v.seen ++ [b], buf := bs, turn := .cons } := by
  rw [step_run h ht hs hp]
  obtain ⟨ub, as, cap, hn, hd, k, buf, closed, rq, wq, posted, turn, started, seen, nw, qr, qw, pr, pw⟩ := h
  obtain ⟨p1, p2, p3⟩ := pr i (by rw [hp]; simp)
  have e : x.s.step (.run 0) =
      { x.s with R := Chan.upd x.s.R i { x.s.R i with status := .done, slot := false, waiting := false }
                 log := x.s.log ++ [.doneR i (.value b)]
                 buf := bs
                 posted := [] } := by
    have e0 : x.s.step (.run 0) = { x.s with posted := [] }.resumeR i := by
      simp [Chan.St.step, ub, Chan.St.run, posted, hp]
    rw [e0]
    unfold Chan.St.resumeR
    simp only [buf, hb, p1, hdir, p2, Bool.false_eq_true, if_false, reduceCtorEq, decide_false, Bool.and_false,
      Bool.false_and]
    unfold Chan.St.wakeWriter Chan.St.endR
    simp [wq, hw, p1, p2, hdir]
  rw [after_one _ _ [.doneR i (.value b)] (by rw [e])]
  rw [e]
  simp only [List.foldl_cons, List.foldl_nil, St.note]
  constructor <;> dsimp only <;> try assumption
  all_goals try grind [upd_app]

theorem Sees.runReadWake {c n : Nat} {d : Bool} {x : St} {v : V} (h : Sees c n d x v) (ht : v.turn = .exec)
    (hs : v.started = true) {b : Nat} {bs : List Nat} (hb : v.buf = b :: bs) {i : Nat} (hp : v.posted = [.r i])
    (hdir : v.dir = none) {w : Nat} (hw : v.wq = [w]) (hl : v.buf.length = c) (hr : v.rq = []) :
    Sees c n d x.step { v with posted := [.w w], seen := v.seen ++ [b], buf := bs, turn := .cons, wq := [] } := by
  rw [step_run h ht hs hp]
  obtain ⟨ub, as, cap, hn, hd, k, buf, closed, rq, wq, posted, turn, started, seen, nw, qr, qw, pr, pw⟩ := h
  obtain ⟨p1, p2, p3⟩ := pr i (by rw [hp]; simp)
  obtain ⟨q1, q2, q3, q4, q5, q6⟩ := qw w (by rw [hw]; simp)
  have e : x.s.step (.run 0) =
      { x.s with R := Chan.upd x.s.R i { x.s.R i with status := .done, slot := false, waiting := false }
                 W := Chan.upd x.s.W w { x.s.W w with waiting := false }
                 log := x.s.log ++ [.doneR i (.value b)]
                 buf := bs
                 wq := []
                 posted := [.w w] } := by
    have e0 : x.s.step (.run 0) = { x.s with posted := [] }.resumeR i := by
      simp [Chan.St.step, ub, Chan.St.run, posted, hp]
    rw [e0]
    unfold Chan.St.resumeR
    have h1 : ¬ bs.length = c := by rw [hb] at hl; simp at hl; omega
    simp only [buf, hb, p1, hdir, p2, Bool.false_eq_true, if_false, reduceCtorEq, decide_false, Bool.and_false,
      Bool.false_and]
    simp [Chan.St.wakeWriter, Chan.St.endR, wq, hw, Chan.St.writeReady, cap, h1, q1, rq, hr, as, p1, p2, hdir]
  rw [after_one _ _ [.doneR i (.value b)] (by rw [e])]
  rw [e]
  simp only [List.foldl_cons, List.foldl_nil, St.note]
  constructor <;> dsimp only <;> try assumption
  all_goals try grind [upd_app]

/-- A write that was woken puts its value into the buffer and wakes the reader. -/
theorem Sees.runWrite {c n : Nat} {d : Bool} {x : St} {v : V} (h : Sees c n d x v) (ht : v.turn = .exec)
    (hs : v.started = true) (hb : v.buf = []) (hc : 0 < c) {w i : Nat} (hp : v.posted = [.w w]) (hr : v.rq = [i])
    (hw : v.wq = []) :
    Sees c n d x.step { v with posted := [.r i], dir := none, buf := [w], k := v.k + 1, rq := [], turn := .prod } := by
  rw [step_run h ht hs hp]
  obtain ⟨ub, as, cap, hn, hd, k, buf, closed, rq, wq, posted, turn, started, seen, nw, qr, qw, pr, pw⟩ := h
  obtain ⟨p1, p2, p3, p4⟩ := pw w (by rw [hp]; simp)
  obtain ⟨q1, q2, q3, q4⟩ := qr i (by rw [hr]; simp)
  have e : x.s.step (.run 0) =
      { x.s with W := Chan.upd x.s.W w { x.s.W w with status := .done, slot := false, waiting := false }
                 R := Chan.upd x.s.R i { x.s.R i with waiting := false }
                 log := x.s.log ++ [.doneW w .ok]
                 buf := [w]
                 rq := []
                 posted := [.r i] } := by
    have e0 : x.s.step (.run 0) = { x.s with posted := [] }.resumeW w := by
      simp [Chan.St.step, ub, Chan.St.run, posted, hp]
    rw [e0]
    have h1 : ¬ c = 0 := by omega
    have h2 : ¬ 0 = c := by omega
    simp [Chan.St.resumeW, p1, p2, p3, Chan.St.endW, Chan.pushBack, cap, h1, h2, buf, hb, Chan.St.wakeReader, rq, hr,
      Chan.St.readReady, q1, wq, hw, as]
  rw [after_one _ _ [.doneW w .ok] (by rw [e])]
  rw [e]
  simp only [List.foldl_cons, List.foldl_nil, St.note]
  constructor <;> dsimp only <;> try assumption
  all_goals try grind [upd_app]

end Cobalt.Loop
