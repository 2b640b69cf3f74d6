import Verif.Rpc.Spec
/-! Helper: the invariant. -/
namespace Cobalt.Rpc

@[simp] theorem upd_self {α : Type} (f : Nat → α) (i : Nat) (a : α) : upd f i a i = a := by simp [upd]
theorem upd_ne {α : Type} (f : Nat → α) {i j : Nat} (a : α) (h : j ≠ i) : upd f i a j = f j := by simp [upd, h]
theorem upd_app {α : Type} (f : Nat → α) (i : Nat) (a : α) (j : Nat) : upd f i a j = if j = i then a else f j := rfl

/-- The coroutine whose request the worker has. -/
def K.holds : K → Option Nat
  | .busy i | .answering i => some i
  | _ => none

/-- A request of the coroutine is with a worker. -/
def W.out : W → Prop
  | .sent | .receiving => True
  | _ => False

/-- A call is being made. -/
def W.calls : W → Prop
  | .sending | .sent | .receiving | .stop => True
  | _ => False

structure Inv (P : Prog) (s : St) : Prop where
  /-- a worker has a request only of coroutines that made one -/
  only : ∀ x i, (s.k x).holds = some i → (s.w i).out ∨ s.w i = .stop ∨ s.w i = .aborted
  ans : ∀ x i, s.k x = .answering i → s.w i = .sent ∨ s.w i = .stop
  uniq : ∀ x y i, (s.k x).holds = some i → (s.k y).holds = some i → x = y
  has : ∀ i, (s.w i).out → ∃ x, x < P.workers ∧ (s.k x).holds = some i
  recv : ∀ i x, s.w i = .receiving → s.k x ≠ .answering i
  wk : ∀ x, P.workers ≤ x → s.k x = .idle
  snd : ∀ i, i ∈ s.senders ↔ s.w i = .sending
  sndN : s.senders.Nodup
  tk : ∀ x, x ∈ s.takers ↔ s.k x = .waiting
  tkN : s.takers.Nodup
  excl : s.senders = [] ∨ s.takers = []
  here : ∀ i, P.works ≤ i → s.w i = .new
  told : ∀ i, s.told i = true → ∃ j e, j ≠ i ∧ s.w j = .failed e
  calm : ∀ i, s.told i = true → s.w i ≠ .sending ∧ s.w i ≠ .receiving
  abrt : ∀ i, s.w i = .stop ∨ s.w i = .aborted → s.told i = true
  tak : ∀ i, (P.calls i).take (s.res i).length = (s.res i).map .ok
  len : ∀ i, (s.res i).length ≤ (P.calls i).length
  mid : ∀ i, (s.w i).calls → (s.res i).length < (P.calls i).length
  got : ∀ i o, s.w i = .got o → (P.calls i)[(s.res i).length]? = some o
  done : ∀ i, s.w i = .done → (s.res i).length = (P.calls i).length
  err : ∀ i e, s.w i = .failed e → (P.calls i)[(s.res i).length]? = some (.fail e)
  nonempty : ∀ i, s.w i = .aborted → P.calls i ≠ []
  jn : s.joined = true → ∀ i, i < P.works → s.w i ≠ .new
  cl : s.closed = true → ∀ i, i < P.works → (s.w i).dead = true
  clT : s.closed = true → s.takers = []
  end' : ∀ x, s.k x = .ended → s.closed = true
  ub : s.ub = true → ∃ x i, s.k x = .busy i ∧ s.w i = .aborted

theorem Inv.init (P : Prog) : Inv P {} := by
  constructor <;> simp [K.holds, W.out, W.calls]

attribute [local grind =] upd_app K.holds W.out W.calls W.dead

theorem cancel_cases (a : W) :
    ((a = .sending ∨ a = .receiving) ∧ a.cancel = .stop) ∨ (a ≠ .sending ∧ a ≠ .receiving ∧ a.cancel = a) := by
  cases a <;> simp [W.cancel]

attribute [local grind! .] cancel_cases

theorem Inv.die {P : Prog} {s : St} (h : Inv P s) (hu : s.ub = false) {i : Nat} (hi : i < P.works) (hw : s.w i = .sent ∨ s.w i = .stop)
    (ht : s.told i = true) : Inv P (s.die i .aborted) := by
  have hT := h.told
  obtain ⟨h1, h2, h3, h4, h5, h6, h7, h8, h9, h10, h11, h12, h13, h14, h15, h16, h17, h18, h19, h20, h21, h22, h23, h24, h25, h26, h27⟩ := h
  unfold St.die
  constructor
  case told => intro a b; obtain ⟨j, e, hj, he⟩ := hT a b; exact ⟨j, e, hj, by grind⟩
  all_goals dsimp only
  all_goals grind

theorem Inv.fail {P : Prog} {s : St} (h : Inv P s) (hu : s.ub = false) {i e : Nat} (hi : i < P.works) (hw : s.w i = .got (.fail e)) :
    Inv P (s.die i (.failed e)) := by
  have hT := h.told
  obtain ⟨h1, h2, h3, h4, h5, h6, h7, h8, h9, h10, h11, h12, h13, h14, h15, h16, h17, h18, h19, h20, h21, h22, h23, h24, h25, h26, h27⟩ := h
  unfold St.die
  constructor
  case told => intro a b; obtain ⟨j, e, hj, he⟩ := hT a b; exact ⟨j, e, hj, by grind⟩
  all_goals dsimp only
  all_goals grind

theorem Inv.cancelAll {P : Prog} {s : St} (h : Inv P s) (hu : s.ub = false) {i e : Nat} (hw : s.w i = .failed e) :
    Inv P (s.cancelAll i) := by
  have hT := h.told
  have hs : s.senders.filter (· == i) = [] := by
    rw [List.filter_eq_nil_iff]; intro a ha; have := (h.snd a).1 ha; grind
  obtain ⟨h1, h2, h3, h4, h5, h6, h7, h8, h9, h10, h11, h12, h13, h14, h15, h16, h17, h18, h19, h20, h21, h22, h23, h24, h25, h26, h27⟩ := h
  unfold St.cancelAll
  rw [hs]
  constructor
  case told =>
    intro a b
    by_cases ha : a = i
    · subst ha
      obtain ⟨j, e, hj, he⟩ := hT a (by simpa using b)
      exact ⟨j, e, hj, by grind⟩
    · exact ⟨i, e, fun h => ha h.symm, by grind⟩
  case has =>
    intro a b
    obtain ⟨x, hx, hx'⟩ := h4 a (by grind)
    exact ⟨x, hx, hx'⟩
  case here => intro a b; have := h12 a b; grind
  all_goals dsimp only
  all_goals grind

theorem Inv.receive {P : Prog} {s : St} (h : Inv P s) (hu : s.ub = false) {i : Nat} (hi : i < P.works) (hw : s.w i = .sent) :
    Inv P (s.receive P i) := by
  unfold St.receive
  split
  · rename_i ht
    exact h.die hu hi (.inl hw) ht
  · rename_i ht
    have hT := h.told
    split
    · rename_i ha
      rw [List.any_eq_true] at ha
      obtain ⟨y, hy, ha⟩ := ha
      obtain ⟨h1, h2, h3, h4, h5, h6, h7, h8, h9, h10, h11, h12, h13, h14, h15, h16, h17, h18, h19, h20, h21, h22, h23, h24, h25, h26, h27⟩ := h
      split
      · rename_i o ho
        unfold St.call at ho
        constructor
        case told => intro a b; obtain ⟨j, e, hj, he⟩ := hT a b; exact ⟨j, e, hj, by grind⟩
        all_goals dsimp only
        all_goals grind
      · constructor <;> assumption
    · rename_i ha
      rw [Bool.not_eq_true, List.any_eq_false] at ha
      obtain ⟨h1, h2, h3, h4, h5, h6, h7, h8, h9, h10, h11, h12, h13, h14, h15, h16, h17, h18, h19, h20, h21, h22, h23, h24, h25, h26, h27⟩ := h
      constructor
      case told => intro a b; obtain ⟨j, e, hj, he⟩ := hT a b; exact ⟨j, e, hj, by grind⟩
      case recv =>
        intro a x hax hx
        have : x < P.workers := by
          apply Classical.byContradiction
          intro hn
          rw [h6 x (by omega)] at hx; cases hx
        have := ha x (List.mem_range.2 this)
        grind
      all_goals dsimp only
      all_goals grind

theorem Inv.request {P : Prog} {s : St} (h : Inv P s) (hu : s.ub = false) {i : Nat} (hi : i < P.works) (hw : s.w i = .new ∨ ∃ o, s.w i = .got o)
    {res : Nat → List Nat} (hr : ∀ j, j ≠ i → res j = s.res j) (ht : (P.calls i).take (res i).length = (res i).map .ok)
    (hl : (res i).length ≤ (P.calls i).length) (hc : s.closed = false) : Inv P (St.request P { s with res := res } i) := by
  have hT := h.told
  have ha : ∀ x, s.k x ≠ .answering i := by
    intro x hx; have := h.ans x i hx; grind
  obtain ⟨h1, h2, h3, h4, h5, h6, h7, h8, h9, h10, h11, h12, h13, h14, h15, h16, h17, h18, h19, h20, h21, h22, h23, h24, h25, h26, h27⟩ := h
  unfold St.request
  split
  · rename_i ho
    unfold St.call at ho
    dsimp only at ho
    unfold St.die
    constructor
    case told => intro a b; obtain ⟨j, e, hj, he⟩ := hT a b; exact ⟨j, e, hj, by grind⟩
    all_goals dsimp only
    all_goals grind
  · rename_i o ho
    unfold St.call at ho
    dsimp only at ho ⊢
    split
    · unfold St.die
      constructor
      case told => intro a b; obtain ⟨j, e, hj, he⟩ := hT a b; exact ⟨j, e, hj, by grind⟩
      all_goals dsimp only
      all_goals grind
    · split
      · rename_i x xs hx
        have hxw : s.k x = .waiting := (h9 x).1 (by rw [hx]; simp)
        have hxl : x < P.workers := by
          apply Classical.byContradiction
          intro hn
          rw [h6 x (by omega)] at hxw; cases hxw
        constructor
        case has =>
          intro a ha
          dsimp only at ha ⊢
          by_cases hai : a = i
          · exact ⟨x, hxl, by rw [upd_self, hai]; rfl⟩
          · rw [upd_ne _ _ hai] at ha
            obtain ⟨y, hy, hy'⟩ := h4 a ha
            refine ⟨y, hy, ?_⟩
            rw [upd_ne]
            · exact hy'
            · intro e; rw [e, hxw] at hy'; cases hy'
        case told => intro a b; obtain ⟨j, e, hj, he⟩ := hT a b; exact ⟨j, e, hj, by grind⟩
        all_goals dsimp only
        all_goals grind
      · constructor
        case told => intro a b; obtain ⟨j, e, hj, he⟩ := hT a b; exact ⟨j, e, hj, by grind⟩
        all_goals dsimp only
        all_goals grind

theorem Inv.reply_dead {P : Prog} {s : St} (h : Inv P s) {x i : Nat} (hk : s.k x = .busy i) (hd : (s.w i).dead = true) :
    Inv P { s with ub := true } := by
  have hab : s.w i = .aborted := by
    have := h.only x i (by rw [hk]; rfl)
    cases hwi : s.w i <;> rw [hwi] at this hd <;> simp_all [W.out, W.dead]
  have hT := h.told
  obtain ⟨h1, h2, h3, h4, h5, h6, h7, h8, h9, h10, h11, h12, h13, h14, h15, h16, h17, h18, h19, h20, h21, h22, h23, h24, h25, h26, h27⟩ := h
  constructor
  case ub => exact fun _ => ⟨x, i, hk, hab⟩
  all_goals assumption

theorem Inv.reply_got {P : Prog} {s : St} (h : Inv P s) (hu : s.ub = false) {x i : Nat} (hx : x < P.workers)
    (hk : s.k x = .busy i) (hw : s.w i = .receiving) {o : Out} (ho : s.call P i = some o) :
    Inv P { s with w := upd s.w i (.got o), k := upd s.k x .idle } := by
  have hT := h.told
  obtain ⟨h1, h2, h3, h4, h5, h6, h7, h8, h9, h10, h11, h12, h13, h14, h15, h16, h17, h18, h19, h20, h21, h22, h23, h24, h25, h26, h27⟩ := h
  unfold St.call at ho
  constructor
  case told => intro a b; obtain ⟨j, e, hj, he⟩ := hT a b; exact ⟨j, e, hj, by grind⟩
  all_goals dsimp only
  all_goals grind

theorem Inv.reply_wait {P : Prog} {s : St} (h : Inv P s) (hu : s.ub = false) {x i : Nat} (hx : x < P.workers)
    (hk : s.k x = .busy i) (hw : s.w i = .sent ∨ s.w i = .stop) : Inv P { s with k := upd s.k x (.answering i) } := by
  have hT := h.told
  obtain ⟨h1, h2, h3, h4, h5, h6, h7, h8, h9, h10, h11, h12, h13, h14, h15, h16, h17, h18, h19, h20, h21, h22, h23, h24, h25, h26, h27⟩ := h
  constructor
  case told => exact hT
  case has =>
    intro a ha
    obtain ⟨y, hy, hy'⟩ := h4 a ha
    refine ⟨y, hy, ?_⟩
    dsimp only
    rw [upd_app]
    split
    · rename_i e; subst e; rw [hk] at hy'; exact hy'
    · exact hy'
  all_goals dsimp only
  all_goals grind

theorem Inv.reply {P : Prog} {s : St} (h : Inv P s) (hu : s.ub = false) {x i : Nat} (hx : x < P.workers)
    (hk : s.k x = .busy i) : Inv P (s.reply P x i) := by
  unfold St.reply
  split
  · rename_i hd
    exact h.reply_dead hk hd
  · rename_i hd
    split
    · rename_i o hw ho
      exact h.reply_got hu hx hk hw ho
    · rename_i hn
      refine h.reply_wait hu hx hk ?_
      have h1 := h.only x i (by rw [hk]; rfl)
      have h2 := h.mid i
      cases hwi : s.w i with
      | receiving =>
        rw [hwi] at h2
        exact (hn _ hwi (List.getElem?_eq_getElem (h2 trivial))).elim
      | _ => simp_all [W.out, W.dead]

theorem Inv.take {P : Prog} {s : St} (h : Inv P s) (hu : s.ub = false) {x : Nat} (hx : x < P.workers) (hk : s.k x = .idle) :
    Inv P (s.take x) := by
  have hT := h.told
  obtain ⟨h1, h2, h3, h4, h5, h6, h7, h8, h9, h10, h11, h12, h13, h14, h15, h16, h17, h18, h19, h20, h21, h22, h23, h24, h25, h26, h27⟩ := h
  unfold St.take
  split
  · constructor
    case told => exact hT
    all_goals dsimp only
    all_goals grind
  · split
    · constructor
      case told => intro a b; obtain ⟨j, e, hj, he⟩ := hT a b; exact ⟨j, e, hj, by grind⟩
      all_goals dsimp only
      all_goals grind
    · constructor
      case told => exact hT
      all_goals dsimp only
      all_goals grind

theorem Inv.join {P : Prog} {s : St} (h : Inv P s) (hu : s.ub = false) (hn : s.allNot P = true) : Inv P (s.join P) := by
  have hall : ∀ i, i < P.works → s.w i ≠ .new := by
    intro i hi
    unfold St.allNot at hn
    rw [List.all_eq_true] at hn
    have := hn i (List.mem_range.2 hi)
    simpa using this
  have key : ∀ t : St, Inv P t → (∀ i, i < P.works → t.w i ≠ .new) → Inv P { t with joined := true } := by
    intro t h ht
    obtain ⟨h1, h2, h3, h4, h5, h6, h7, h8, h9, h10, h11, h12, h13, h14, h15, h16, h17, h18, h19, h20, h21, h22, h23, h24, h25, h26, h27⟩ := h
    constructor <;> first | assumption | exact fun _ => ht
  unfold St.join
  split
  · rename_i i hi
    have hf : ∃ e, s.w i = .failed e := by
      have := List.find?_some hi
      split at this
      · rename_i e he; exact ⟨e, he⟩
      · cases this
    obtain ⟨e, he⟩ := hf
    refine key _ (h.cancelAll hu he) ?_
    intro j hj
    have := hall j hj
    unfold St.cancelAll
    dsimp only
    grind
  · exact key s h hall

theorem Inv.close {P : Prog} {s : St} (h : Inv P s) (hu : s.ub = false) (hd : s.allDead P = true) : Inv P s.close := by
  have hT := h.told
  have hall : ∀ i, i < P.works → (s.w i).dead = true := by
    intro i hi
    unfold St.allDead at hd
    rw [List.all_eq_true] at hd
    exact hd i (List.mem_range.2 hi)
  obtain ⟨h1, h2, h3, h4, h5, h6, h7, h8, h9, h10, h11, h12, h13, h14, h15, h16, h17, h18, h19, h20, h21, h22, h23, h24, h25, h26, h27⟩ := h
  unfold St.close
  constructor
  case told => exact hT
  all_goals dsimp only
  all_goals grind

theorem Inv.open' {P : Prog} {s : St} (h : Inv P s) {i : Nat} (hi : i < P.works) (hd : (s.w i).dead = false) :
    s.closed = false := by
  cases hc : s.closed with
  | false => rfl
  | true => rw [h.cl hc i hi] at hd; cases hd

theorem Inv.answer {P : Prog} {s : St} (h : Inv P s) (hu : s.ub = false) {i : Nat} (hi : i < P.works) {o : Out}
    (hw : s.w i = .got o) : Inv P (s.answer P i o) := by
  cases o with
  | ok r =>
    have hg := h.got i _ hw
    have hlt : (s.res i).length < (P.calls i).length := by
      rcases Nat.lt_or_ge (s.res i).length (P.calls i).length with h | h
      · exact h
      · rw [List.getElem?_eq_none h] at hg; cases hg
    refine h.request hu hi (.inr ⟨_, hw⟩) (fun j hj => upd_ne _ _ hj) ?_ ?_ (h.open' hi (by rw [hw]; rfl))
    · rw [upd_self, List.length_append, List.length_singleton, List.map_append, ← h.tak i, List.take_add_one, hg]
      rfl
    · rw [upd_self, List.length_append, List.length_singleton]; omega
  | fail e =>
    have h' := h.fail hu hi hw
    simp only [St.answer]
    split
    · exact h'.cancelAll hu (e := e) (by simp [St.die])
    · exact h'

theorem Inv.resume {P : Prog} {s : St} (h : Inv P s) (hu : s.ub = false) {i : Nat} (hi : i < P.works) :
    Inv P (s.resume P i) := by
  unfold St.resume
  split
  · rename_i hw; exact h.receive hu hi hw
  · rename_i hw; exact h.die hu hi (.inr hw) (h.abrt i (.inl hw))
  · rename_i o hw; exact h.answer hu hi hw
  · exact h

theorem Inv.worker {P : Prog} {s : St} (h : Inv P s) (hu : s.ub = false) {x : Nat} (hx : x < P.workers) :
    Inv P (s.worker P x) := by
  unfold St.worker
  split
  · rename_i hk; exact h.take hu hx hk
  · rename_i i hk; exact h.reply hu hx hk
  · exact h

theorem Inv.start {P : Prog} {s : St} (h : Inv P s) (hu : s.ub = false) {i : Nat} (hi : i < P.works) (hw : s.w i = .new) :
    Inv P (s.request P i) :=
  h.request hu hi (.inl hw) (res := s.res) (fun _ _ => rfl) (h.tak i) (h.len i) (h.open' hi (by rw [hw]; rfl))

theorem Inv.step {P : Prog} {s : St} (h : Inv P s) (e : Ev) : Inv P (s.step P e) := by
  unfold St.step
  split
  · rename_i hc
    rw [Bool.and_eq_true] at hc
    obtain ⟨hu, hc⟩ := hc
    have hu : s.ub = false := by simpa using hu
    cases e with
    | start i => simp only [St.can, Bool.and_eq_true, decide_eq_true_eq, beq_iff_eq] at hc; exact h.start hu hc.1.1 hc.2
    | resume i => simp only [St.can, Bool.and_eq_true, decide_eq_true_eq] at hc; exact h.resume hu hc.1
    | join => simp only [St.can, Bool.and_eq_true] at hc; exact h.join hu hc.2
    | close => simp only [St.can, Bool.and_eq_true] at hc; exact h.close hu hc.2
    | worker x => simp only [St.can, Bool.and_eq_true, decide_eq_true_eq] at hc; exact h.worker hu hc.1
  · exact h

theorem Inv.steps {P : Prog} {s : St} (h : Inv P s) (es : List Ev) : Inv P (s.steps P es) := by
  induction es generalizing s with
  | nil => exact h
  | cons e es ih => exact ih (h.step e)

theorem Inv.run (P : Prog) (es : List Ev) : Inv P (run P es) := (Inv.init P).steps es

end Cobalt.Rpc
