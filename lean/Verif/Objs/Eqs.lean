import Verif.Objs.Spec
import Verif.Chan.Inv
/-! # What the events do to the channel of a pool -/
namespace Cobalt.Objs

open Chan (Status Tok Obs upd RRes WRes)

/-- What is always so with a channel used in this way. -/
structure Ok (c : Chan.St) : Prop where
  ub : c.ub = false
  opened : c.closed = false
  wq : c.wq = []
  dir : ∀ j, (c.R j).direct = none
  link : ∀ j ∈ c.rq, (c.R j).waiting = true ∧ (c.R j).status = .susp ∧ (c.R j).cancelled = false
  post : ∀ t ∈ c.posted, ∃ j, t = .r j ∧ (c.R j).status = .susp ∧ (c.R j).waiting = false
  nd : c.rq.Nodup
  ndp : c.posted.Nodup
  susp : ∀ j, (c.R j).status = .susp → j ∈ c.rq ∨ .r j ∈ c.posted
  new : ∀ j, c.nextR ≤ j → c.R j = {}
  logR : ∀ j r, Obs.doneR j r ∈ c.log → (c.R j).status = .done
  logW : ∀ i r, Obs.doneW i r ∈ c.log → i < c.nextW
  old : ∀ w ∈ c.buf, w < c.nextW

theorem Ok.init (n : Nat) : Ok (Chan.St.init n) := by
  constructor <;> simp [Chan.St.init]

theorem steps_one (c : Chan.St) (a : Chan.Ev) : c.steps [a] = c.step a := rfl

theorem steps_two (c : Chan.St) (a b : Chan.Ev) : c.steps [a, b] = (c.step a).step b := rfl

theorem upd_upd {α : Type} (f : Nat → α) (i : Nat) (x y : α) : upd (upd f i x) i y = upd f i y := by
  funext j; simp only [Chan.upd_apply]; split <;> rfl

/-- A read that finds an object. -/
theorem take_ready {c : Chan.St} (h : Ok c) (conn : Bool) {b : Nat} {bs : List Nat}
    (hb : c.buf = b :: bs) :
    c.steps [.mkR, .awaitR c.nextR conn false []] =
      { c with R := upd c.R c.nextR { status := .done }, nextR := c.nextR + 1, buf := bs
               log := c.log ++ [Obs.startR c.nextR] ++ [Obs.doneR c.nextR (.value b)] } := by
  have e1 : c.step .mkR =
      { c with R := upd c.R c.nextR { status := .fresh }, nextR := c.nextR + 1 } := by
    simp [Chan.St.step, h.ub]
  have e0 : (upd c.R c.nextR { status := .fresh }) c.nextR = { status := .fresh } := by
    simp [Chan.upd_apply]
  rw [steps_two, e1]
  unfold Chan.St.step
  rw [if_neg (by simp [h.ub])]
  dsimp only
  unfold Chan.St.awaitR
  rw [if_neg (by simp [e0])]
  rw [if_pos (by simp [Chan.St.readReady, hb])]
  unfold Chan.St.resumeR
  simp only [e0, hb]
  simp only [Bool.false_eq_true, if_false, Chan.St.endR, e0, upd_upd, h.opened, Bool.false_and]
  unfold Chan.St.wakeWriter
  simp [h.wq]

/-- A read that has to wait. -/
theorem take_wait {c : Chan.St} (h : Ok c) (conn : Bool) (hb : c.buf = []) :
    c.steps [.mkR, .awaitR c.nextR conn false []] =
      { c with R := upd c.R c.nextR { status := .susp, waiting := true, slot := conn }
               nextR := c.nextR + 1, rq := c.rq ++ [c.nextR]
               log := c.log ++ [Obs.startR c.nextR] } := by
  have e1 : c.step .mkR =
      { c with R := upd c.R c.nextR { status := .fresh }, nextR := c.nextR + 1 } := by
    simp [Chan.St.step, h.ub]
  have e0 : (upd c.R c.nextR { status := .fresh }) c.nextR = { status := .fresh } := by
    simp [Chan.upd_apply]
  rw [steps_two, e1]
  unfold Chan.St.step
  rw [if_neg (by simp [h.ub])]
  dsimp only
  unfold Chan.St.awaitR
  rw [if_neg (by simp [e0])]
  rw [if_neg (by simp [Chan.St.readReady, hb, h.opened])]
  simp only [e0]
  simp only [Bool.false_eq_true, if_false, h.wq, Chan.St.queueR, e0, upd_upd]

/-- An object comes back: it goes into the buffer, and the first one that waits is woken. -/
theorem bring_ready {c : Chan.St} (h : Ok c) (conn : Bool) (hb : c.buf.length < c.cap) :
    c.steps [.mkW, .awaitW c.nextW conn false []] =
      { c with W := upd c.W c.nextW { status := .done }, nextW := c.nextW + 1
               buf := c.buf ++ [c.nextW], rq := c.rq.tail
               R := match c.rq with
                 | [] => c.R
                 | j :: _ => upd c.R j { c.R j with waiting := false }
               posted := c.posted ++ (c.rq.head?.map Tok.r).toList
               log := c.log ++ [Obs.startW c.nextW] ++ [Obs.doneW c.nextW .ok] } := by
  have e1 : c.step .mkW =
      { c with W := upd c.W c.nextW { status := .fresh }, nextW := c.nextW + 1 } := by
    simp [Chan.St.step, h.ub, h.opened]
  have e0 : (upd c.W c.nextW { status := .fresh }) c.nextW = { status := .fresh } := by
    simp [Chan.upd_apply]
  rw [steps_two, e1]
  unfold Chan.St.step
  rw [if_neg (by simp [h.ub])]
  dsimp only
  unfold Chan.St.awaitW
  rw [if_neg (by simp [e0])]
  have hne : c.buf.length ≠ c.cap := by omega
  rw [if_pos (by simp [Chan.St.writeReady, hne])]
  unfold Chan.St.resumeW
  simp only [e0]
  have hc : c.cap ≠ 0 := by omega
  have ha : (c.asserted || decide (c.buf.length = c.cap)) = c.asserted := by simp [hne]
  simp only [Bool.false_eq_true, if_false, Chan.St.endW, e0, upd_upd, Chan.pushBack, if_neg hc,
    if_neg hne, ha]
  unfold Chan.St.wakeReader
  cases hq : c.rq with
  | nil => simp
  | cons j rest =>
    have hl := (h.link j (by simp [hq])).1
    simp [Chan.St.readReady, hl, h.wq]

/-- A read that was woken or cancelled runs. -/
theorem run_read {c : Chan.St} (h : Ok c) {k j : Nat} (hk : c.posted[k]? = some (.r j)) :
    c.steps [.run k] =
      if (c.R j).cancelled = true then
        { c with posted := c.posted.eraseIdx k, log := c.log ++ [Obs.doneR j .aborted]
                 R := upd c.R j { c.R j with status := .done, slot := false, waiting := false } }
      else match c.buf with
        | [] => { c with posted := c.posted.eraseIdx k, ub := true }
        | b :: bs =>
          { c with posted := c.posted.eraseIdx k, log := c.log ++ [Obs.doneR j (.value b)], buf := bs
                   R := upd c.R j { c.R j with status := .done, slot := false, waiting := false } } := by
  rw [steps_one]
  unfold Chan.St.step
  rw [if_neg (by simp [h.ub])]
  dsimp only
  unfold Chan.St.run
  rw [hk]
  dsimp only
  unfold Chan.St.resumeR
  simp only [h.opened, Bool.false_and, Bool.false_eq_true, if_false, h.dir]
  split
  · simp [Chan.St.endR, h.dir]
  · cases hb : c.buf with
    | nil => rfl
    | cons b bs =>
      unfold Chan.St.wakeWriter
      simp [h.wq, Chan.St.endR, h.dir]

theorem run_abort {c : Chan.St} (h : Ok c) {k j : Nat} (hk : c.posted[k]? = some (.r j))
    (hc : (c.R j).cancelled = true) : c.steps [.run k] =
      { c with posted := c.posted.eraseIdx k, log := c.log ++ [Obs.doneR j .aborted]
               R := upd c.R j { c.R j with status := .done, slot := false, waiting := false } } := by
  rw [Objs.run_read h hk, if_pos hc]

theorem run_got {c : Chan.St} (h : Ok c) {k j : Nat} (hk : c.posted[k]? = some (.r j))
    (hc : (c.R j).cancelled = false) {b : Nat} {bs : List Nat} (hb : c.buf = b :: bs) :
    c.steps [.run k] =
      { c with posted := c.posted.eraseIdx k, log := c.log ++ [Obs.doneR j (.value b)], buf := bs
               R := upd c.R j { c.R j with status := .done, slot := false, waiting := false } } := by
  rw [Objs.run_read h hk, if_neg (by simp [hc])]
  split
  · rename_i h'; rw [hb] at h'; cases h'
  · rename_i h'; rw [hb] at h'; cases h'; rfl

/-- … a read that finds nothing: `*direct` of an optional that holds nothing -/
theorem run_bad {c : Chan.St} (h : Ok c) {k j : Nat} (hk : c.posted[k]? = some (.r j))
    (hc : (c.R j).cancelled = false) (hb : c.buf = []) :
    c.steps [.run k] = { c with posted := c.posted.eraseIdx k, ub := true } := by
  rw [Objs.run_read h hk, if_neg (by simp [hc])]
  split
  · rfl
  · rename_i h'; rw [hb] at h'; cases h'

theorem run_none {c : Chan.St} {k : Nat} (hk : c.posted[k]? = none) : c.steps [.run k] = c := by
  rw [steps_one]
  unfold Chan.St.step
  split
  · rfl
  · dsimp only; unfold Chan.St.run; rw [hk]

theorem cancel_read {c : Chan.St} (h : Ok c) (j : Nat) : c.steps [.cancelR j] =
    if (c.R j).slot = true then
      { c with R := upd c.R j { c.R j with cancelled := true, slot := false, waiting := false }
               rq := c.rq.erase j
               posted := if (c.R j).waiting then c.posted ++ [.r j] else c.posted }
    else c := by
  rw [steps_one]
  unfold Chan.St.step
  rw [if_neg (by simp [h.ub])]
  rfl

/-! The invariant -/

theorem Ok.take_ready {c : Chan.St} (h : Ok c) {b : Nat} {bs : List Nat} (hb : c.buf = b :: bs) :
    Ok { c with R := upd c.R c.nextR { status := .done }, nextR := c.nextR + 1, buf := bs
                log := c.log ++ [Obs.startR c.nextR] ++ [Obs.doneR c.nextR (.value b)] } := by
  have hn := h.new c.nextR (Nat.le_refl _)
  have hq : c.nextR ∉ c.rq := fun hc => by have := (h.link _ hc).1; rw [hn] at this; cases this
  have hp : Tok.r c.nextR ∉ c.posted := fun hc => by
    obtain ⟨j, hj, h1, h2⟩ := h.post _ hc; cases hj; rw [hn] at h1; cases h1
  obtain ⟨a1, a2, a3, a4, a5, a6, a7, a8, a9, a10, a11, a12, a13⟩ := h
  constructor
  all_goals dsimp only
  case post =>
    intro t ht
    obtain ⟨j, rfl, h1⟩ := a6 t ht
    refine ⟨j, rfl, ?_⟩
    grind
  all_goals clear a6
  all_goals grind

theorem Ok.take_wait {c : Chan.St} (h : Ok c) (conn : Bool) :
    Ok { c with R := upd c.R c.nextR { status := .susp, waiting := true, slot := conn }
                nextR := c.nextR + 1, rq := c.rq ++ [c.nextR]
                log := c.log ++ [Obs.startR c.nextR] } := by
  have hn := h.new c.nextR (Nat.le_refl _)
  have hq : c.nextR ∉ c.rq := fun hc => by have := (h.link _ hc).1; rw [hn] at this; cases this
  have hp : Tok.r c.nextR ∉ c.posted := fun hc => by
    obtain ⟨j, hj, h1, h2⟩ := h.post _ hc; cases hj; rw [hn] at h1; cases h1
  obtain ⟨a1, a2, a3, a4, a5, a6, a7, a8, a9, a10, a11, a12, a13⟩ := h
  constructor
  all_goals dsimp only
  case post =>
    intro t ht
    obtain ⟨j, rfl, h1⟩ := a6 t ht
    refine ⟨j, rfl, ?_⟩
    grind
  all_goals clear a6
  case nd => rw [List.nodup_append]; grind
  all_goals grind

theorem Ok.bring {c : Chan.St} (h : Ok c) :
    Ok { c with W := upd c.W c.nextW { status := .done }, nextW := c.nextW + 1
                buf := c.buf ++ [c.nextW], rq := c.rq.tail
                R := match c.rq with
                  | [] => c.R
                  | j :: _ => upd c.R j { c.R j with waiting := false }
                posted := c.posted ++ (c.rq.head?.map Tok.r).toList
                log := c.log ++ [Obs.startW c.nextW] ++ [Obs.doneW c.nextW .ok] } := by
  cases hq : c.rq with
  | nil =>
    obtain ⟨a1, a2, a3, a4, a5, a6, a7, a8, a9, a10, a11, a12, a13⟩ := h
    constructor
    all_goals simp only [List.tail_nil, List.head?_nil, Option.map_none, Option.toList_none,
      List.append_nil]
    case post => exact a6
    all_goals clear a6
    all_goals grind
  | cons j rest =>
    obtain ⟨a1, a2, a3, a4, a5, a6, a7, a8, a9, a10, a11, a12, a13⟩ := h
    have hj := a5 j (by simp [hq])
    have hp : Tok.r j ∉ c.posted := fun hc => by
      obtain ⟨j', hj', h1, h2⟩ := a6 _ hc; cases hj'; rw [hj.1] at h2; cases h2
    have hjn : j < c.nextR := by
      refine Classical.byContradiction fun hc => ?_
      have := a10 j (by omega)
      rw [this] at hj; simp at hj
    constructor
    all_goals simp only [List.tail_cons, List.head?_cons, Option.map_some, Option.toList_some]
    case post =>
      intro t ht
      rcases List.mem_append.1 ht with ht | ht
      · obtain ⟨j', rfl, h1⟩ := a6 t ht
        refine ⟨j', rfl, ?_⟩
        grind
      · cases List.mem_singleton.1 ht
        refine ⟨j, rfl, ?_⟩
        grind
    all_goals clear a6
    case ndp => rw [List.nodup_append]; grind
    all_goals grind

theorem mem_erase {l : List Tok} (h : l.Nodup) {k : Nat} {t : Tok} (hk : l[k]? = some t) (x : Tok) :
    x ∈ l.eraseIdx k ↔ x ∈ l ∧ x ≠ t := by
  induction l generalizing k with
  | nil => simp at hk
  | cons a l ih =>
    obtain ⟨h1, h2⟩ := List.nodup_cons.1 h
    cases k with
    | zero =>
      simp at hk; subst hk
      simp; grind
    | succ k =>
      simp at hk
      simp [ih h2 hk]
      have : t ∈ l := List.mem_of_getElem? hk
      grind

theorem Ok.run_read {c : Chan.St} (h : Ok c) {k j : Nat} (hk : c.posted[k]? = some (.r j)) (r : RRes)
    {bs : List Nat} (hbs : ∀ w ∈ bs, w ∈ c.buf) :
    Ok { c with posted := c.posted.eraseIdx k, log := c.log ++ [Obs.doneR j r], buf := bs
                R := upd c.R j { c.R j with status := .done, slot := false, waiting := false } } := by
  have he := mem_erase h.ndp hk
  have hnd : (c.posted.eraseIdx k).Nodup := h.ndp.sublist (List.eraseIdx_sublist _ _)
  obtain ⟨a1, a2, a3, a4, a5, a6, a7, a8, a9, a10, a11, a12, a13⟩ := h
  obtain ⟨j', hj', hj⟩ := a6 _ (List.mem_of_getElem? hk)
  cases hj'
  have hjn : j < c.nextR := by
    refine Classical.byContradiction fun hc => ?_
    have := a10 j (by omega)
    rw [this] at hj; simp at hj
  have hq : j ∉ c.rq := fun hc => by rw [(a5 _ hc).1] at hj; simp at hj
  constructor
  all_goals dsimp only
  case post =>
    intro t ht
    obtain ⟨h1, h2⟩ := (he t).1 ht
    obtain ⟨j', rfl, h3⟩ := a6 t h1
    refine ⟨j', rfl, ?_⟩
    grind
  all_goals clear a6
  case susp =>
    intro i hi
    simp only [he]
    grind
  all_goals grind

theorem Ok.cancel {c : Chan.St} (h : Ok c) (j : Nat) (hs : (c.R j).status = .susp) :
    Ok { c with R := upd c.R j { c.R j with cancelled := true, slot := false, waiting := false }
                rq := c.rq.erase j
                posted := if (c.R j).waiting then c.posted ++ [.r j] else c.posted } := by
  have hm : ∀ x, x ∈ c.rq.erase j ↔ x ∈ c.rq ∧ x ≠ j := fun x => by
    rw [h.nd.mem_erase_iff]; grind
  have hnd : (c.rq.erase j).Nodup := h.nd.erase j
  obtain ⟨a1, a2, a3, a4, a5, a6, a7, a8, a9, a10, a11, a12, a13⟩ := h
  have hp : Tok.r j ∈ c.posted → (c.R j).waiting = false := fun hc => by
    obtain ⟨j', hj', h1, h2⟩ := a6 _ hc; cases hj'; exact h2
  have hjn : j < c.nextR := by
    refine Classical.byContradiction fun hc => ?_
    have := a10 j (by omega)
    rw [this] at hs; simp at hs
  have hpost : ∀ t, t ∈ (if (c.R j).waiting = true then c.posted ++ [.r j] else c.posted) ↔
      t ∈ c.posted ∨ (t = .r j ∧ (c.R j).waiting = true) := by
    intro t
    split <;> grind
  constructor
  all_goals dsimp only
  case post =>
    intro t ht
    rcases (hpost t).1 ht with ht | ⟨rfl, hw⟩
    · obtain ⟨j', rfl, h3⟩ := a6 t ht
      refine ⟨j', rfl, ?_⟩
      grind
    · exact ⟨j, rfl, by grind⟩
  case ndp =>
    split
    · rw [List.nodup_append]; grind
    · exact a8
  all_goals clear a6
  case susp =>
    intro i hi
    rw [hpost, hm]
    grind
  all_goals clear hpost
  all_goals grind

end Cobalt.Objs
