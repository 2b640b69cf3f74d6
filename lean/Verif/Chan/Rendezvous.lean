import Verif.Chan.Tokens
/-! Helper: channels with limit 0. -/
namespace Cobalt.Chan

/-- Facts about a channel with limit 0 between steps (`cur = none`) and inside. -/
structure Z0 (s : St) (cur : Option Tok) : Prop where
  cap0 : s.cap = 0
  buf0 : s.buf = []
  val : ∀ i v, Obs.doneR i (.value v) ∈ s.log → (s.R i).direct = some v
  postR : ∀ i, Tok.r i ∈ s.posted ∨ cur = some (.r i) →
    (s.R i).direct.isSome = true ∨ (s.R i).cancelled = true ∨ s.closed = true

theorem Z0.init : Z0 (St.init 0) none := by
  constructor <;> simp [St.init]

theorem Z0.wakeWriter {s : St} (h : WF s none) (z : Z0 s none) : s.wakeWriter = s := by
  unfold St.wakeWriter
  split
  · rfl
  · rename_i w rest hq
    have h1 : s.closed = false := by
      cases hc : s.closed with
      | false => rfl
      | true => have := h.closedQ hc; simp [hq] at this
    have h2 : s.rq = [] := by rcases h.excl with h | h; exact h; simp [hq] at h
    have hb := z.buf0
    have hc := z.cap0
    cases s
    simp_all [St.writeReady]

theorem Z0.wakeReader {s : St} (h : WF s none) (z : Z0 s none) : s.wakeReader = s := by
  unfold St.wakeReader
  split
  · rfl
  · rename_i w rest hq
    have h1 : s.closed = false := by
      cases hc : s.closed with
      | false => rfl
      | true => have := h.closedQ hc; simp [hq] at this
    have h2 : s.wq = [] := by rcases h.excl with h | h; simp [hq] at h; exact h
    have hb := z.buf0
    cases s
    simp_all [St.readReady]

/-- The end of a read on a channel with limit 0. -/
theorem Z0.resumeR_eq {s : St} {i : Nat} (h : WF s (some (.r i))) (z : Z0 s (some (.r i))) :
    s.resumeR i = match (s.R i).direct with
      | some d => s.endR i (.value d)
      | none => s.endR i (if s.closed then .brokenPipe else .aborted) := by
  have hb := z.buf0
  have hp := z.postR i (Or.inr rfl)
  have hd := h.rdir i
  unfold St.resumeR
  cases hdir : (s.R i).direct with
  | none =>
    rw [hdir] at hp
    by_cases hc : s.closed = true
    · simp [hb, hc]
    · have : (s.R i).cancelled = true := by simpa [hc] using hp
      simp [hc, this]
  | some d =>
    have := hd d hdir
    simp only [hb, this]
    simp only [decide_true, Option.isNone_some, Bool.and_false, Bool.false_eq_true, if_false]
    have he := h.endR (.value d)
    have hz : Z0 (s.endR i (.value d)) none := by
      constructor
      all_goals (cases z; simp only [St.endR] at *; grind)
    rw [hz.wakeWriter he]

theorem Z0.resumeR {s : St} {i : Nat} (h : WF s (some (.r i))) (z : Z0 s (some (.r i))) :
    Z0 (s.resumeR i) none := by
  rw [z.resumeR_eq h]
  have hp := z.postR
  split
  · constructor
    all_goals (cases z; simp only [St.endR] at *; grind)
  · constructor
    all_goals (cases z; simp only [St.endR] at *; grind)

theorem Z0.endW {s : St} {i : Nat} {res : WRes} (z : Z0 s (some (.w i))) : Z0 (s.endW i res) none := by
  constructor
  all_goals (cases z; simp only [St.endW] at *; grind)

/-- The end of a write on a channel with limit 0. -/
theorem Z0.resumeW_eq {s : St} {i : Nat} (h : WF s (some (.w i))) (z : Z0 s (some (.w i))) :
    s.resumeW i =
      if (s.W i).closedF then s.endW i .brokenPipe
      else if (s.W i).cancelled then s.endW i .aborted
      else { s.endW i .ok with asserted := s.asserted || !(s.W i).direct } := by
  have hb := z.buf0
  have hc := z.cap0
  unfold St.resumeW
  split
  · rfl
  · split
    · rfl
    · have he := h.endW .ok
      have hz : Z0 (s.endW i .ok) none := z.endW
      split
      · rename_i hd
        rw [hz.wakeReader he]
        simp [St.endW, hd]
      · rename_i hd
        have hz' : Z0 { s.endW i .ok with buf := pushBack s.cap s.buf i, asserted := s.asserted || decide (s.buf.length = s.cap) } none := by
          have : pushBack s.cap s.buf i = s.buf := by simp [pushBack, hc]
          rw [this]
          cases hz; constructor <;> assumption
        refine (hz'.wakeReader (he.setBuf _ _ (length_pushBack _ _ _ h.len))).trans ?_
        simp [pushBack, hb, hc, St.endW, hd]

theorem Z0.resumeW {s : St} {i : Nat} (h : WF s (some (.w i))) (z : Z0 s (some (.w i))) :
    Z0 (s.resumeW i) none := by
  rw [z.resumeW_eq h]
  split
  · exact z.endW
  · split
    · exact z.endW
    · have := z.endW (res := .ok)
      cases this; constructor <;> assumption

theorem Z0.intR {s : St} {cur : Option Tok} (h : WF s cur) (z : Z0 s cur) (i : Nat) :
    Z0 (s.intR i) cur := by
  rw [intR_eq]
  split
  · exact z
  · split
    · have := h.rpost i
      have := h.rcur i
      constructor
      all_goals (cases z; simp only [St.endR] at *; grind)
    · constructor
      all_goals (cases z; simp only at *; grind)

theorem Z0.intW {s : St} {cur : Option Tok} (z : Z0 s cur) (i : Nat) :
    Z0 (s.intW i) cur := by
  rw [intW_eq]
  split
  · exact z
  · split
    · constructor
      all_goals (cases z; simp only [St.endW] at *; grind)
    · constructor
      all_goals (cases z; simp only at *; grind)

theorem Z0.int {s : St} {cur : Option Tok} (h : WF s cur) (z : Z0 s cur) (x : Tok) :
    Z0 (s.int x) cur := by
  cases x
  · exact z.intR h _
  · exact z.intW _

theorem Z0.hits {s : St} {cur : Option Tok} (h : WF s cur) (z : Z0 s cur) (ts : List Tok) :
    Z0 (ts.foldl St.int s) cur := by
  induction ts generalizing s with
  | nil => exact z
  | cons x ts ih => exact ih (h.int x) (z.int h x)

/-- When an observation was made: its position in the history. -/
abbrev St.at (s : St) (o : Obs) : Nat := s.log.idxOf o

/-- Values are handed over in the order in which both sides started to wait. -/
structure Ord (s : St) : Prop where
  seen : ∀ i v, (s.R i).direct = some v → Obs.startR i ∈ s.log ∧ Obs.startW v ∈ s.log
  seenR : ∀ i, i ∈ s.rq → Obs.startR i ∈ s.log
  seenW : ∀ i, i ∈ s.wq → Obs.startW i ∈ s.log
  pair : ∀ i j v w, (s.R i).direct = some v → (s.R j).direct = some w →
    (s.at (.startR i) < s.at (.startR j) ↔ s.at (.startW v) < s.at (.startW w))
  doneR : ∀ i v j, (s.R i).direct = some v → j ∈ s.rq → s.at (.startR i) < s.at (.startR j)
  doneW : ∀ i v j, (s.R i).direct = some v → j ∈ s.wq → s.at (.startW v) < s.at (.startW j)
  sortR : s.rq.Pairwise fun i j => s.at (.startR i) < s.at (.startR j)
  sortW : s.wq.Pairwise fun i j => s.at (.startW i) < s.at (.startW j)

theorem Ord.init (cap : Nat) : Ord (St.init cap) := by
  constructor <;> simp [St.init]

theorem Ord.frame {s s' : St} (o : Ord s) {m : List Obs} (hl : s'.log = s.log ++ m)
    (hr : s'.rq.Sublist s.rq) (hw : s'.wq.Sublist s.wq)
    (hd : ∀ i, (s'.R i).direct = (s.R i).direct) : Ord s' := by
  have key : ∀ a, a ∈ s.log → s'.at a = s.at a := by
    intro a ha
    simp only [St.at, hl]
    exact List.idxOf_append_of_mem ha
  have hr' : ∀ i, i ∈ s'.rq → i ∈ s.rq := fun i h => hr.subset h
  have hw' : ∀ i, i ∈ s'.wq → i ∈ s.wq := fun i h => hw.subset h
  constructor
  case sortR =>
    apply (o.sortR.sublist hr).imp_of_mem
    intro a b ha hb h
    rwa [key _ (o.seenR a (hr' _ ha)), key _ (o.seenR b (hr' _ hb))]
  case sortW =>
    apply (o.sortW.sublist hw).imp_of_mem
    intro a b ha hb h
    rwa [key _ (o.seenW a (hw' _ ha)), key _ (o.seenW b (hw' _ hb))]
  case seen => intro i v h; have := o.seen i v (by rw [← hd]; exact h); grind
  case seenR => intro i h; have := o.seenR i (hr' i h); grind
  case seenW => intro i h; have := o.seenW i (hw' i h); grind
  case pair =>
    intro i j v w h1 h2
    rw [hd] at h1 h2
    have a := o.seen i v h1
    have b := o.seen j w h2
    rw [key _ a.1, key _ a.2, key _ b.1, key _ b.2]
    exact o.pair i j v w h1 h2
  case doneR =>
    intro i v j h1 h2
    rw [hd] at h1
    rw [key _ (o.seen i v h1).1, key _ (o.seenR j (hr' j h2))]
    exact o.doneR i v j h1 (hr' j h2)
  case doneW =>
    intro i v j h1 h2
    rw [hd] at h1
    rw [key _ (o.seen i v h1).2, key _ (o.seenW j (hw' j h2))]
    exact o.doneW i v j h1 (hw' j h2)

/-- A new observation comes last. -/
theorem at_last {l : List Obs} {o : Obs} (h : o ∉ l) :
    (l ++ [o]).idxOf o = l.length ∧ ∀ a, a ∈ l → (l ++ [o]).idxOf a < l.length := by
  constructor
  · rw [List.idxOf_append_of_notMem h]; simp
  · intro a ha
    rw [List.idxOf_append_of_mem ha]
    exact List.idxOf_lt_length_of_mem ha

theorem Ord.queueR {s : St} {i : Nat} (o : Ord s) (conn txn : Bool) (hin : Obs.startR i ∈ s.log)
    (hd : (s.R i).direct = none)
    (hlast : ∀ a, a ∈ s.log → a ≠ .startR i → s.at a < s.at (.startR i)) (hi : i ∉ s.rq) :
    Ord (s.queueR i conn txn) := by
  have hdir : ∀ j, ((s.queueR i conn txn).R j).direct = (s.R j).direct := by
    intro j; simp only [St.queueR]; grind
  constructor
  case sortR =>
    simp only [St.queueR, List.pairwise_append, List.pairwise_cons, List.mem_singleton]
    refine ⟨o.sortR, by simp, ?_⟩
    rintro a ha b rfl
    apply hlast _ (o.seenR a ha)
    intro h
    simp only [Obs.startR.injEq] at h
    exact hi (h ▸ ha)
  case sortW => exact o.sortW
  case seen => intro i v h; rw [hdir] at h; exact o.seen i v h
  case seenR => intro j h; simp only [St.queueR] at *; have := o.seenR j; grind
  case seenW => exact o.seenW
  case pair => intro i j v w h1 h2; rw [hdir] at h1 h2; exact o.pair i j v w h1 h2
  case doneR =>
    intro j v k h1 h2
    rw [hdir] at h1
    simp only [St.queueR, List.mem_append, List.mem_singleton] at h2
    rcases h2 with h2 | rfl
    · exact o.doneR j v k h1 h2
    · apply hlast _ (o.seen j v h1).1
      intro h
      simp only [Obs.startR.injEq] at h
      subst h
      rw [hd] at h1
      exact absurd h1 (by simp)
  case doneW => intro j v k h1 h2; rw [hdir] at h1; exact o.doneW j v k h1 h2

theorem Ord.queueW {s : St} {i : Nat} (o : Ord s) (conn txn : Bool) (hin : Obs.startW i ∈ s.log)
    (hd : ∀ j, (s.R j).direct ≠ some i)
    (hlast : ∀ a, a ∈ s.log → a ≠ .startW i → s.at a < s.at (.startW i)) (hi : i ∉ s.wq) :
    Ord (s.queueW i conn txn) := by
  constructor
  case sortW =>
    simp only [St.queueW, List.pairwise_append, List.pairwise_cons, List.mem_singleton]
    refine ⟨o.sortW, by simp, ?_⟩
    rintro a ha b rfl
    apply hlast _ (o.seenW a ha)
    intro h
    simp only [Obs.startW.injEq] at h
    exact hi (h ▸ ha)
  case sortR => exact o.sortR
  case seen => exact o.seen
  case seenW => intro j h; simp only [St.queueW] at *; have := o.seenW j; grind
  case seenR => exact o.seenR
  case pair => exact o.pair
  case doneW =>
    intro j v k h1 h2
    simp only [St.queueW, List.mem_append, List.mem_singleton] at h1 h2
    rcases h2 with h2 | rfl
    · exact o.doneW j v k h1 h2
    · apply hlast _ (o.seen j v h1).2
      intro h
      simp only [Obs.startW.injEq] at h
      subst h
      exact hd _ h1
  case doneR => exact o.doneR

theorem Ord.handR {s : St} {i w : Nat} {rest : List Nat} (o : Ord s) (txn : Bool)
    (hin : Obs.startR i ∈ s.log) (hd : (s.R i).direct = none)
    (hlast : ∀ a, a ∈ s.log → a ≠ .startR i → s.at a < s.at (.startR i))
    (hr : s.rq = []) (hq : s.wq = w :: rest) : Ord ((s.takeFrom i w txn).handR i w) := by
  have hdir : ∀ j, (((s.takeFrom i w txn).handR i w).R j).direct =
      if j = i then some w else (s.R j).direct := by
    intro j; simp only [St.takeFrom, St.handR]; grind
  have hwq : ((s.takeFrom i w txn).handR i w).wq = rest := by
    simp [St.takeFrom, St.handR, hq]
  have hrq : ((s.takeFrom i w txn).handR i w).rq = [] := by simp [St.takeFrom, St.handR, hr]
  have hlt : ∀ j v, (s.R j).direct = some v → s.at (.startR j) < s.at (.startR i) ∧
      s.at (.startW v) < s.at (.startW w) := by
    intro j v h
    refine ⟨hlast _ (o.seen j v h).1 ?_, o.doneW j v w h (by simp [hq])⟩
    intro h'
    simp only [Obs.startR.injEq] at h'
    subst h'
    rw [hd] at h
    exact absurd h (by simp)
  have hso := o.sortW
  rw [hq, List.pairwise_cons] at hso
  have hat : ∀ a, ((s.takeFrom i w txn).handR i w).at a = s.at a := fun _ => rfl
  have hlog : ((s.takeFrom i w txn).handR i w).log = s.log := rfl
  constructor
  case sortR => rw [hrq]; simp
  case sortW => rw [hwq]; exact hso.2
  case seenR => rw [hrq]; simp
  case seenW => intro j h; rw [hwq] at h; exact o.seenW j (by simp [hq, h])
  case seen =>
    intro j v h
    rw [hdir] at h
    rw [hlog]
    have h1 := o.seen j v
    have h2 := o.seenW w (by simp [hq])
    grind
  case doneR => rw [hrq]; simp
  case doneW =>
    intro j v k h1 h2
    rw [hwq] at h2
    rw [hdir] at h1
    rw [hat, hat]
    by_cases hj : j = i
    · rw [if_pos hj] at h1
      simp only [Option.some.injEq] at h1
      subst h1
      exact hso.1 k h2
    · rw [if_neg hj] at h1
      exact o.doneW j v k h1 (by simp [hq, h2])
  case pair =>
    intro a b v x h1 h2
    rw [hdir] at h1 h2
    simp only [hat]
    have := o.pair a b v x
    have := hlt a v
    have := hlt b x
    grind

theorem Ord.handW {s : St} {i j : Nat} {rest : List Nat} (o : Ord s) (txn : Bool)
    (hin : Obs.startW i ∈ s.log) (hd : ∀ k, (s.R k).direct ≠ some i)
    (hj : (s.R j).direct = none)
    (hlast : ∀ a, a ∈ s.log → a ≠ .startW i → s.at a < s.at (.startW i))
    (hr : s.wq = []) (hq : s.rq = j :: rest) : Ord ((s.giveTo i j txn).handW i j) := by
  have hdir : ∀ k, (((s.giveTo i j txn).handW i j).R k).direct =
      if k = j then some i else (s.R k).direct := by
    intro k; simp only [St.giveTo, St.handW]; grind
  have hrq : ((s.giveTo i j txn).handW i j).rq = rest := by
    simp [St.giveTo, St.handW, hq]
  have hwq : ((s.giveTo i j txn).handW i j).wq = [] := by simp [St.giveTo, St.handW, hr]
  have hlt : ∀ k v, (s.R k).direct = some v → s.at (.startR k) < s.at (.startR j) ∧
      s.at (.startW v) < s.at (.startW i) := by
    intro k v h
    refine ⟨o.doneR k v j h (by simp [hq]), hlast _ (o.seen k v h).2 ?_⟩
    intro h'
    simp only [Obs.startW.injEq] at h'
    subst h'
    exact hd k h
  have hso := o.sortR
  rw [hq, List.pairwise_cons] at hso
  have hat : ∀ a, ((s.giveTo i j txn).handW i j).at a = s.at a := fun _ => rfl
  have hlog : ((s.giveTo i j txn).handW i j).log = s.log := rfl
  constructor
  case sortW => rw [hwq]; simp
  case sortR => rw [hrq]; exact hso.2
  case seenW => rw [hwq]; simp
  case seenR => intro k h; rw [hrq] at h; exact o.seenR k (by simp [hq, h])
  case seen =>
    intro k v h
    rw [hdir] at h
    rw [hlog]
    have h1 := o.seen k v
    have h2 := o.seenR j (by simp [hq])
    grind
  case doneW => rw [hwq]; simp
  case doneR =>
    intro a v k h1 h2
    rw [hrq] at h2
    rw [hdir] at h1
    rw [hat, hat]
    by_cases ha : a = j
    · subst ha
      exact hso.1 k h2
    · rw [if_neg ha] at h1
      exact o.doneR a v k h1 (by simp [hq, h2])
  case pair =>
    intro a b v x h1 h2
    rw [hdir] at h1 h2
    simp only [hat]
    have := o.pair a b v x
    have := hlt a v
    have := hlt b x
    grind

end Cobalt.Chan
