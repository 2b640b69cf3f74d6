import Verif.Sig.Spec
/-!
# Lemmas for C104
-/
namespace Cobalt.Sig

theorem before_snoc {l : List Obs} {a b x : Obs} : Before (l ++ [x]) a b ↔ Before l a b ∨ (a ∈ l ∧ b = x) := by
  unfold Before
  rw [List.sublist_append_iff]
  constructor
  · rintro ⟨l1, l2, h, h1, h2⟩
    rcases l1 with _ | ⟨y, l1⟩
    · simp only [List.nil_append] at h
      subst h
      have := h2.length_le
      simp at this
    · rcases l1 with _ | ⟨z, l1⟩
      · simp only [List.cons_append, List.nil_append, List.cons.injEq] at h
        obtain ⟨rfl, rfl⟩ := h
        simp only [List.singleton_sublist] at h1
        simp only [List.singleton_sublist, List.mem_singleton] at h2
        exact .inr ⟨h1, h2⟩
      · simp only [List.cons_append, List.cons.injEq] at h
        obtain ⟨rfl, rfl, h⟩ := h
        simp only [List.nil_eq, List.append_eq_nil_iff] at h
        obtain ⟨rfl, rfl⟩ := h
        exact .inl h1
  · rintro (h | ⟨h, rfl⟩)
    · exact ⟨[a, b], [], by simp, h, by simp⟩
    · exact ⟨[a], [b], by simp, by simpa using h, by simp⟩

theorem Before.left {l : List Obs} {a b : Obs} (h : Before l a b) : a ∈ l := h.subset (by simp)
theorem Before.right {l : List Obs} {a b : Obs} (h : Before l a b) : b ∈ l := h.subset (by simp)
theorem Before.append {l : List Obs} {a b : Obs} (h : Before l a b) (m : List Obs) : Before (l ++ m) a b :=
  h.trans (List.sublist_append_left l m)

theorem before_append {l m : List Obs} {a b : Obs} (h : b ∉ m) : Before (l ++ m) a b ↔ Before l a b := by
  refine ⟨fun hb => ?_, fun hb => hb.append m⟩
  rw [← List.reverse_reverse m] at h hb
  generalize m.reverse = m' at h hb
  induction m' with
  | nil => simpa using hb
  | cons x m ih =>
    rw [List.reverse_cons, ← List.append_assoc, before_snoc] at hb
    simp only [List.reverse_cons, List.mem_append, List.mem_singleton, not_or] at h
    rcases hb with hb | ⟨_, rfl⟩
    · exact ih h.1 hb
    · exact absurd rfl h.2

/-- The memory is in order. -/
structure Inv (s : St) : Prop where
  ub : s.ub = false
  nd : s.conn.Nodup
  lt : ∀ w ∈ s.conn, w < s.slots.length
  wt : ∀ w ∈ s.conn, s.co (s.slot w).co = ⟨true, some ((s.slot w).place, ⟨1, true⟩)⟩
  inj : ∀ w ∈ s.conn, ∀ w' ∈ s.conn, (s.slot w).co = (s.slot w').co → w = w'
  cur : ∀ f ∈ s.stack, ∀ w, f.cur = some w →
    w < s.slots.length ∧ s.co (s.slot w).co = ⟨true, some ((s.slot w).place, ⟨1, false⟩)⟩
  curinj : s.stack.Pairwise fun f g => ∀ w w', f.cur = some w → g.cur = some w' → (s.slot w).co ≠ (s.slot w').co
  low : ∀ f ∈ s.stack.tail, f.cur.isSome = true
  todo : ∀ f ∈ s.stack, f.todo.Nodup ∧ ∀ w ∈ f.todo, w < s.slots.length
  num : s.stack.Pairwise fun f g => g.n < f.n
  numlt : ∀ f ∈ s.stack, f.n < s.emits
  dead : s.sig = false → s.conn = []

theorem Inv.init : Inv {} := by constructor <;> simp

theorem slot_append {s : St} {w : Nat} (h : w < s.slots.length) (x : Slot) :
    (s.slots ++ [x]).getD w ⟨0, 0⟩ = s.slots.getD w ⟨0, 0⟩ := by
  simp [List.getD_eq_getElem?_getD, List.getElem?_append_left h]

theorem slot_last (s : St) (x : Slot) : (s.slots ++ [x]).getD s.slots.length ⟨0, 0⟩ = x := by
  simp [List.getD_eq_getElem?_getD]

/-- A coroutine that neither waits nor runs does something. -/
theorem Inv.doAct {s : St} (h : Inv s) {i : Nat} {a : Act}
    (hw : ∀ w ∈ s.conn, (s.slot w).co ≠ i) (hr : ∀ f ∈ s.stack, ∀ w, f.cur = some w → (s.slot w).co ≠ i)
    (hs : s.sig = true ∨ ∀ k, a ≠ .again k) : Inv (s.doAct i a) := by
  have hu : ∀ c j, j ≠ i → upd s.co i c j = s.co j := fun c j hj => by simp [upd, hj]
  cases a with
  | hold => exact h
  | leave =>
    refine { h with wt := fun w hm => ?_, cur := fun f hf w hc => ⟨(h.cur f hf w hc).1, ?_⟩ }
    · exact (hu _ _ (hw w hm)).trans (h.wt w hm)
    · exact (hu _ _ (hr f hf w hc)).trans (h.cur f hf w hc).2
  | finish =>
    refine { h with wt := fun w hm => ?_, cur := fun f hf w hc => ⟨(h.cur f hf w hc).1, ?_⟩ }
    · exact (hu _ _ (hw w hm)).trans (h.wt w hm)
    · exact (hu _ _ (hr f hf w hc)).trans (h.cur f hf w hc).2
  | again k =>
    have hold : ∀ w, w < s.slots.length → St.slot (s.doAct i (.again k)) w = s.slot w := fun w hw => slot_append hw _
    have hnew : St.slot (s.doAct i (.again k)) s.slots.length = ⟨i, k⟩ := slot_last _ _
    have hlen : (s.doAct i (.again k)).slots.length = s.slots.length + 1 := by simp [St.doAct]
    have hcm : ∀ w, w ∈ (s.doAct i (.again k)).conn ↔ w ∈ s.conn ∨ w = s.slots.length := fun w => by simp [St.doAct]
    have hco : ∀ j, (s.doAct i (.again k)).co j = if j = i then ⟨true, some (k, ⟨1, true⟩)⟩ else s.co j := fun j => rfl
    have hst : (s.doAct i (.again k)).stack = s.stack := rfl
    refine ⟨h.ub, ?_, ?_, ?_, ?_, ?_, ?_, h.low, ?_, h.num, h.numlt, ?_⟩
    · show (s.conn ++ [s.slots.length]).Nodup
      rw [List.nodup_append]
      refine ⟨h.nd, by simp, fun x hx y hy => ?_⟩
      have := h.lt x hx
      simp only [List.mem_singleton] at hy
      omega
    · intro w hm
      rw [hlen]
      rcases (hcm w).1 hm with hm | rfl
      · have := h.lt w hm; omega
      · omega
    · intro w hm
      rcases (hcm w).1 hm with hm | rfl
      · rw [hold w (h.lt w hm), hco, if_neg (hw w hm)]
        exact h.wt w hm
      · rw [hnew, hco, if_pos rfl]
    · intro w hm w' hm' he
      rcases (hcm w).1 hm with hm | rfl <;> rcases (hcm w').1 hm' with hm' | rfl
      · rw [hold w (h.lt w hm), hold w' (h.lt w' hm')] at he
        exact h.inj w hm w' hm' he
      · rw [hold w (h.lt w hm), hnew] at he
        exact absurd he (hw w hm)
      · rw [hold w' (h.lt w' hm'), hnew] at he
        exact absurd he.symm (hw w' hm')
      · rfl
    · intro f hf w hc
      rw [hst] at hf
      have := h.cur f hf w hc
      rw [hlen, hold w this.1, hco, if_neg (hr f hf w hc)]
      exact ⟨by omega, this.2⟩
    · rw [hst]
      refine h.curinj.imp_of_mem fun {f g} hf hg hfg w w' hc hc' => ?_
      rw [hold w (h.cur f hf w hc).1, hold w' (h.cur g hg w' hc').1]
      exact hfg w w' hc hc'
    · intro f hf
      rw [hst] at hf
      refine ⟨(h.todo f hf).1, fun w hw => ?_⟩
      have := (h.todo f hf).2 w hw
      rw [hlen]
      omega
    · intro hsig
      rcases hs with hs | hs
      · rw [show (s.doAct i (.again k)).sig = s.sig from rfl, hs] at hsig
        cases hsig
      · exact absurd rfl (hs k)

/-- The coroutines that wait by the slots `l` are destroyed. -/
def killCo (sl : Nat → Slot) (co : Nat → Co) (l : List Nat) (j : Nat) : Co :=
  if l.any (fun w => (sl w).co == j) then ⟨false, none⟩ else co j

/-- What the destructor of the signal does. -/
theorem kill_eq (l : List Nat) : ∀ (s : St), (∀ w ∈ l, s.co (s.slot w).co = ⟨true, some ((s.slot w).place, ⟨1, true⟩)⟩) →
    l.Pairwise (fun w w' => (s.slot w).co ≠ (s.slot w').co) →
    l.foldl (fun s w => s.release w .dropped) s =
      { s with co := killCo s.slot s.co l, log := s.log ++ l.map .dropped } := by
  induction l with
  | nil =>
    intro s _ _
    have : killCo s.slot s.co [] = s.co := by funext j; simp [killCo]
    simp [this]
  | cons w l ih =>
    intro s h1 h2
    rw [List.pairwise_cons] at h2
    have hr : s.release w .dropped = { s with
        co := upd s.co (s.slot w).co { alive := false, tmp := none }
        log := s.log ++ [.dropped w] } := by
      simp only [St.release, h1 w (by simp)]
      simp
    rw [List.foldl_cons, hr, ih]
    · have : killCo s.slot (upd s.co (s.slot w).co ⟨false, none⟩) l = killCo s.slot s.co (w :: l) := by
        funext j
        simp only [killCo, List.any_cons]
        by_cases hw : (s.slot w).co = j
        · simp [hw, upd]
        · have : ¬ j = (s.slot w).co := fun h => hw h.symm
          simp [hw, this, upd]
      show { s with co := killCo s.slot (upd s.co (s.slot w).co ⟨false, none⟩) l,
                    log := s.log ++ [Obs.dropped w] ++ l.map Obs.dropped } = _
      rw [this]
      simp
    · intro w' hw'
      have := h2.1 w' hw'
      show upd s.co (s.slot w).co _ (s.slot w').co = _
      rw [upd, if_neg (fun h => this h.symm)]
      exact h1 w' (by simp [hw'])
    · exact h2.2

/-- The state after the destructor of the signal. -/
def St.killed (s : St) : St :=
  { s with
    sig := false, conn := []
    co := killCo s.slot s.co s.conn
    log := s.log ++ .killed :: s.conn.map .dropped }

theorem Inv.kill_step {s : St} (h : Inv s) (ho : s.ok .kill = true) : s.step .kill = s.killed := by
  have : s.step .kill =
      s.conn.foldl (fun s w => s.release w .dropped) { s with sig := false, conn := [], log := s.log ++ [.killed] } := by
    simp [St.step, h.ub, ho]
  rw [this, kill_eq]
  · simp [St.killed, List.append_assoc]
    rfl
  · exact h.wt
  · refine h.nd.imp_of_mem fun {w w'} hm hm' hne he => hne (h.inj w hm w' hm' he)

theorem Inv.killed {s : St} (h : Inv s) : Inv s.killed := by
  refine ⟨h.ub, by simp [St.killed], by simp [St.killed], by simp [St.killed], by simp [St.killed], ?_, h.curinj, h.low,
    h.todo, h.num, h.numlt, by simp [St.killed]⟩
  intro f hf w hc
  have := h.cur f hf w hc
  refine ⟨this.1, ?_⟩
  show killCo s.slot s.co s.conn (s.slot w).co = _
  rw [killCo, if_neg]
  · exact this.2
  · simp only [List.any_eq_true, beq_iff_eq, not_exists, not_and]
    intro w' a b
    have hb := h.wt w' a
    rw [b, this.2] at hb
    simp at hb

theorem step_no {s : St} {e : Ev} (ho : s.ok e = false) : s.step e = s := by simp [St.step, ho]

theorem ok_go {s : St} {i : Nat} {a : Act} (ho : s.ok (.go i a) = true) :
    (s.co i).alive = true ∧ (s.co i).waiting = false ∧ s.running i = false ∧ (s.sig = true ∨ ∀ k, a ≠ .again k) := by
  simp only [St.ok, Bool.and_eq_true, Bool.not_eq_true', Bool.or_eq_true] at ho
  refine ⟨ho.1.1.1.2, ho.1.1.2, ho.1.2, ho.2.imp id fun h k hk => ?_⟩
  subst hk
  simp at h

theorem Inv.go {s : St} (h : Inv s) {i : Nat} {a : Act} (ho : s.ok (.go i a) = true) :
    s.step (.go i a) = s.doAct i a ∧ (∀ w ∈ s.conn, (s.slot w).co ≠ i) ∧
      (∀ f ∈ s.stack, ∀ w, f.cur = some w → (s.slot w).co ≠ i) ∧ Inv (s.doAct i a) := by
  obtain ⟨h1, h2, h3, h4⟩ := ok_go ho
  have hw : ∀ w ∈ s.conn, (s.slot w).co ≠ i := by
    intro w hm he
    have := h.wt w hm
    rw [he] at this
    rw [this] at h2
    simp [Co.waiting] at h2
  have hr : ∀ f ∈ s.stack, ∀ w, f.cur = some w → (s.slot w).co ≠ i := by
    intro f hf w hc he
    have : s.running i = true := by
      simp only [St.running, List.any_eq_true]
      exact ⟨f, hf, by simp [hc, he]⟩
    rw [this] at h3
    cases h3
  exact ⟨by simp [St.step, h.ub, ho], hw, hr, h.doAct hw hr h4⟩

/-- A state in which an emission has begun. -/
def St.emitted (s : St) : St :=
  { s with stack := ⟨s.emits, s.conn, none⟩ :: s.stack, emits := s.emits + 1, log := s.log ++ [.emit s.emits] }

theorem Inv.emit {s : St} (h : Inv s) (ho : s.ok .emit = true) : s.step .emit = s.emitted ∧ Inv s.emitted := by
  have hu : s.user = true := by
    simp only [St.ok, Bool.and_eq_true] at ho
    exact ho.1
  refine ⟨by simp [St.step, h.ub, ho, St.emitted], ?_⟩
  refine ⟨h.ub, h.nd, h.lt, h.wt, h.inj, ?_, ?_, ?_, ?_, ?_, ?_, h.dead⟩
  · intro f hf w hc
    rcases List.mem_cons.1 hf with rfl | hf
    · simp at hc
    · exact h.cur f hf w hc
  · show List.Pairwise _ (_ :: s.stack)
    rw [List.pairwise_cons]
    exact ⟨fun g _ w w' hc => by simp at hc, h.curinj⟩
  · intro f hf
    simp only [St.emitted, List.tail_cons] at hf
    cases hs : s.stack with
    | nil => simp [hs] at hf
    | cons g gs =>
      rw [hs] at hf
      rcases List.mem_cons.1 hf with rfl | hf
      · simpa [St.user, hs] using hu
      · exact h.low f (by simp [hs, hf])
  · intro f hf
    rcases List.mem_cons.1 hf with rfl | hf
    · exact ⟨h.nd, h.lt⟩
    · exact h.todo f hf
  · show List.Pairwise _ (_ :: s.stack)
    rw [List.pairwise_cons]
    exact ⟨fun g hg => h.numlt g hg, h.num⟩
  · intro f hf
    rcases List.mem_cons.1 hf with rfl | hf
    · show s.emits < s.emits + 1
      omega
    · have := h.numlt f hf
      show _ < s.emits + 1
      omega

theorem ok_call {s : St} (ho : s.ok .call = true) : ∃ n todo fs, s.stack = ⟨n, todo, none⟩ :: fs := by
  simp only [St.ok, St.user] at ho
  cases hs : s.stack with
  | nil => simp [hs] at ho
  | cons f fs =>
    rw [hs] at ho
    obtain ⟨n, todo, cur⟩ := f
    cases cur with
    | none => exact ⟨n, todo, fs, rfl⟩
    | some w => simp at ho

theorem Inv.pop {s : St} (h : Inv s) (ho : s.ok .call = true) {n : Nat} {fs : List Fr} (hs : s.stack = ⟨n, [], none⟩ :: fs) :
    s.step .call = { s with stack := fs } ∧ Inv { s with stack := fs } := by
  refine ⟨by simp [St.step, h.ub, ho, hs], ?_⟩
  obtain ⟨a, b, c, d, e, f, g, i, j, k, l, m⟩ := h
  rw [hs] at f g i j k l
  refine ⟨a, b, c, d, e, fun x hx => f x (by simp [hx]), g.tail, fun x hx => i x ?_, fun x hx => j x (by simp [hx]), k.tail,
    fun x hx => l x (by simp [hx]), m⟩
  exact List.mem_of_mem_tail hx

theorem Inv.skip {s : St} (h : Inv s) (ho : s.ok .call = true) {n w : Nat} {ws : List Nat} {fs : List Fr}
    (hs : s.stack = ⟨n, w :: ws, none⟩ :: fs) (hc : w ∉ s.conn) :
    s.step .call = { s with stack := ⟨n, ws, none⟩ :: fs } ∧ Inv { s with stack := ⟨n, ws, none⟩ :: fs } := by
  refine ⟨by simp [St.step, h.ub, ho, hs, hc], ?_⟩
  obtain ⟨a, b, c, d, e, f, g, i, j, k, l, m⟩ := h
  rw [hs] at f g i j k l
  rw [List.pairwise_cons] at g k
  refine ⟨a, b, c, d, e, fun x hx => ?_, ?_, i, fun x hx => ?_, ?_, fun x hx => ?_, m⟩
  · rcases List.mem_cons.1 hx with rfl | hx
    · intro w hw; simp at hw
    · exact f x (by simp [hx])
  · exact List.pairwise_cons.2 ⟨fun g _ w w' hc => by simp at hc, g.2⟩
  · rcases List.mem_cons.1 hx with rfl | hx
    · have := j ⟨n, w :: ws, none⟩ (by simp)
      simp only [List.nodup_cons, List.mem_cons, forall_eq_or_imp] at this
      exact ⟨this.1.2, this.2.2⟩
    · exact j x (by simp [hx])
  · exact List.pairwise_cons.2 ⟨fun g hg => k.1 g hg, k.2⟩
  · rcases List.mem_cons.1 hx with rfl | hx
    · exact l ⟨n, w :: ws, none⟩ (by simp)
    · exact l x (by simp [hx])

/-- A state in which a handler has resumed its coroutine. -/
def St.called (s : St) (n w : Nat) (ws : List Nat) (fs : List Fr) : St :=
  { s with
    stack := ⟨n, ws, some w⟩ :: fs
    co := upd s.co (s.slot w).co { tmp := some ((s.slot w).place, ⟨1, false⟩) }
    conn := s.conn.erase w
    log := s.log ++ [.got w n] }

theorem Inv.call {s : St} (h : Inv s) (ho : s.ok .call = true) {n w : Nat} {ws : List Nat} {fs : List Fr}
    (hs : s.stack = ⟨n, w :: ws, none⟩ :: fs) (hc : w ∈ s.conn) :
    s.step .call = s.called n w ws fs ∧ Inv (s.called n w ws fs) := by
  refine ⟨?_, ?_⟩
  · have h1 := h.wt w hc
    simp only [St.step, h.ub, ho, hs, hc, Bool.not_true, Bool.or_self, Bool.false_eq_true, if_false, if_true, St.handler,
      St.called]
    have h2 : s.co (s.slots.getD w ⟨0, 0⟩).co = ⟨true, some ((s.slots.getD w ⟨0, 0⟩).place, ⟨1, true⟩)⟩ := h1
    simp only [St.slot, h2]
    simp
  · obtain ⟨a, b, c, d, e, f, g, i, j, k, l, m⟩ := h
    rw [hs] at f g i j k l
    rw [List.pairwise_cons] at g k
    have her : ∀ x, x ∈ (s.conn.erase w) → x ∈ s.conn ∧ x ≠ w := fun x hx => by
      rw [b.mem_erase_iff] at hx
      exact ⟨hx.2, hx.1⟩
    have hne : ∀ x ∈ fs, ∀ w', x.cur = some w' → (s.slot w').co ≠ (s.slot w).co := by
      intro x hx w' hw' he
      have h1 := (f x (by simp [hx]) w' hw').2
      rw [he, d w hc] at h1
      simp at h1
    refine ⟨a, b.erase w, fun x hx => c x (her x hx).1, fun x hx => ?_, fun x hx y hy => e x (her x hx).1 y (her y hy).1,
      fun x hx w' hw' => ?_, ?_, i, fun x hx => ?_, ?_, fun x hx => ?_, fun hd => ?_⟩
    · have := her x hx
      show upd s.co (s.slot w).co _ (s.slot x).co = _
      rw [upd, if_neg (fun he => this.2 (e x this.1 w hc he))]
      exact d x this.1
    · rcases List.mem_cons.1 hx with rfl | hx
      · simp only [Option.some.injEq] at hw'
        subst hw'
        exact ⟨c w hc, by show upd s.co (s.slot w).co _ (s.slot w).co = _; rw [upd, if_pos rfl]; rfl⟩
      · have := f x (by simp [hx]) w' hw'
        refine ⟨this.1, ?_⟩
        show upd s.co (s.slot w).co _ (s.slot w').co = _
        rw [upd, if_neg (hne x hx w' hw')]
        exact this.2
    · refine List.pairwise_cons.2 ⟨fun g hg w1 w2 h1 h2 => ?_, g.2⟩
      simp only [Option.some.injEq] at h1
      subst h1
      exact fun he => hne g hg w2 h2 he.symm
    · rcases List.mem_cons.1 hx with rfl | hx
      · have := j ⟨n, w :: ws, none⟩ (by simp)
        simp only [List.nodup_cons, List.mem_cons, forall_eq_or_imp] at this
        exact ⟨this.1.2, this.2.2⟩
      · exact j x (by simp [hx])
    · exact List.pairwise_cons.2 ⟨fun g hg => k.1 g hg, k.2⟩
    · rcases List.mem_cons.1 hx with rfl | hx
      · exact l ⟨n, w :: ws, none⟩ (by simp)
      · exact l x (by simp [hx])
    · show s.conn.erase w = []
      rw [m hd]
      rfl

theorem ok_act {s : St} {a : Act} (ho : s.ok (.act a) = true) : ∃ n todo w fs, s.stack = ⟨n, todo, some w⟩ :: fs := by
  simp only [St.ok, St.user, Bool.and_eq_true] at ho
  cases hs : s.stack with
  | nil => simp [hs] at ho
  | cons f fs =>
    rw [hs] at ho
    obtain ⟨n, todo, cur⟩ := f
    cases cur with
    | some w => exact ⟨n, todo, w, fs, rfl⟩
    | none => simp at ho

/-- A state in which a handler has returned and its coroutine is still in the expression. -/
def St.held (s : St) (n w : Nat) (ws : List Nat) (fs : List Fr) : St :=
  { s with
    stack := ⟨n, ws, none⟩ :: fs
    co := upd s.co (s.slot w).co { tmp := some ((s.slot w).place, ⟨0, false⟩) } }

theorem Inv.hold {s : St} (h : Inv s) (ho : s.ok (.act .hold) = true) {n w : Nat} {ws : List Nat} {fs : List Fr}
    (hs : s.stack = ⟨n, ws, some w⟩ :: fs) :
    s.step (.act .hold) = s.held n w ws fs ∧ Inv (s.held n w ws fs) := by
  have h1 := (h.cur ⟨n, ws, some w⟩ (by simp [hs]) w rfl)
  refine ⟨?_, ?_⟩
  · simp only [St.step, h.ub, ho, hs, Bool.not_true, Bool.or_self, Bool.false_eq_true, if_false, St.doAct, St.release,
      St.held]
    have h2 : s.co (s.slots.getD w ⟨0, 0⟩).co = ⟨true, some ((s.slots.getD w ⟨0, 0⟩).place, ⟨1, false⟩)⟩ := h1.2
    simp only [St.slot, h2]
    simp
  · obtain ⟨a, b, c, d, e, f, g, i, j, k, l, m⟩ := h
    rw [hs] at f g i j k l
    rw [List.pairwise_cons] at g k
    refine ⟨a, b, c, fun x hx => ?_, e, fun x hx w' hw' => ?_, ?_, i, fun x hx => ?_, ?_, fun x hx => ?_, m⟩
    · show upd s.co (s.slot w).co _ (s.slot x).co = _
      rw [upd, if_neg]
      · exact d x hx
      · intro he
        have := d x hx
        rw [he, h1.2] at this
        simp at this
    · rcases List.mem_cons.1 hx with rfl | hx
      · simp at hw'
      · have := f x (by simp [hx]) w' hw'
        refine ⟨this.1, ?_⟩
        show upd s.co (s.slot w).co _ (s.slot w').co = _
        rw [upd, if_neg (fun he => g.1 x hx w w' rfl hw' he.symm)]
        exact this.2
    · exact List.pairwise_cons.2 ⟨fun g _ w w' hc => by simp at hc, g.2⟩
    · rcases List.mem_cons.1 hx with rfl | hx
      · exact j ⟨n, ws, some w⟩ (by simp)
      · exact j x (by simp [hx])
    · exact List.pairwise_cons.2 ⟨fun g hg => k.1 g hg, k.2⟩
    · rcases List.mem_cons.1 hx with rfl | hx
      · exact l ⟨n, ws, some w⟩ (by simp)
      · exact l x (by simp [hx])

/-- Every step of a state in order, but for a coroutine that goes beyond its expression. -/
theorem Inv.shape {s : St} (h : Inv s) (e : Ev) (hb : ∀ a, e = .act a → s.ok (.act a) = true → a = .hold) :
    Inv (s.step e) ∧
    (s.step e = s ∨
     (∃ i a, e = .go i a ∧ s.step e = s.doAct i a ∧ (s.sig = true ∨ ∀ k, a ≠ .again k)) ∨
     (e = .emit ∧ s.ok .emit = true ∧ s.step e = s.emitted) ∨
     (e = .call ∧ ∃ n fs, s.stack = ⟨n, [], none⟩ :: fs ∧ s.step e = { s with stack := fs }) ∨
     (e = .call ∧ ∃ n w ws fs, s.stack = ⟨n, w :: ws, none⟩ :: fs ∧ w ∉ s.conn ∧
        s.step e = { s with stack := ⟨n, ws, none⟩ :: fs }) ∨
     (e = .call ∧ ∃ n w ws fs, s.stack = ⟨n, w :: ws, none⟩ :: fs ∧ w ∈ s.conn ∧ s.step e = s.called n w ws fs) ∨
     (e = .act .hold ∧ ∃ n w ws fs, s.stack = ⟨n, ws, some w⟩ :: fs ∧ s.step e = s.held n w ws fs) ∨
     (e = .kill ∧ s.step e = s.killed)) := by
  cases ho : s.ok e with
  | false => rw [step_no ho]; exact ⟨h, .inl rfl⟩
  | true =>
    cases e with
    | go i a =>
      obtain ⟨h1, _, _, h2⟩ := h.go ho
      rw [h1]
      exact ⟨h2, .inr (.inl ⟨i, a, rfl, rfl, (ok_go ho).2.2.2⟩)⟩
    | emit =>
      obtain ⟨h1, h2⟩ := h.emit ho
      rw [h1]
      exact ⟨h2, .inr (.inr (.inl ⟨rfl, ho, rfl⟩))⟩
    | call =>
      obtain ⟨n, todo, fs, hs⟩ := ok_call ho
      cases todo with
      | nil =>
        obtain ⟨h1, h2⟩ := h.pop ho hs
        rw [h1]
        exact ⟨h2, .inr (.inr (.inr (.inl ⟨rfl, n, fs, hs, rfl⟩)))⟩
      | cons w ws =>
        by_cases hc : w ∈ s.conn
        · obtain ⟨h1, h2⟩ := h.call ho hs hc
          rw [h1]
          exact ⟨h2, .inr (.inr (.inr (.inr (.inr (.inl ⟨rfl, n, w, ws, fs, hs, hc, rfl⟩)))))⟩
        · obtain ⟨h1, h2⟩ := h.skip ho hs hc
          rw [h1]
          exact ⟨h2, .inr (.inr (.inr (.inr (.inl ⟨rfl, n, w, ws, fs, hs, hc, rfl⟩))))⟩
    | act a =>
      obtain rfl := hb a rfl ho
      obtain ⟨n, ws, w, fs, hs⟩ := ok_act ho
      obtain ⟨h1, h2⟩ := h.hold ho hs
      rw [h1]
      exact ⟨h2, .inr (.inr (.inr (.inr (.inr (.inr (.inl ⟨rfl, n, w, ws, fs, hs, rfl⟩))))))⟩
    | kill =>
      rw [h.kill_step ho]
      exact ⟨h.killed, .inr (.inr (.inr (.inr (.inr (.inr (.inr ⟨rfl, rfl⟩))))))⟩

/-- A coroutine that goes beyond its expression. -/
theorem Inv.beyond {s : St} (h : Inv s) {a : Act} (ho : s.ok (.act a) = true) (ha : a ≠ .hold) :
    (s.step (.act a)).ub = true ∨ ∃ w, Obs.gone w ∈ (s.step (.act a)).log := by
  obtain ⟨n, ws, w, fs, hs⟩ := ok_act ho
  have h1 := (h.cur ⟨n, ws, some w⟩ (by simp [hs]) w rfl)
  have hst : s.step (.act a) = ({ s with stack := ⟨n, ws, none⟩ :: fs }.doAct (s.slot w).co a).release w .gone := by
    simp only [St.step, h.ub, ho, hs, Bool.not_true, Bool.or_self, Bool.false_eq_true, if_false]
  rw [hst]
  cases a with
  | hold => exact absurd rfl ha
  | leave => left; simp [St.doAct, St.release, St.slot, upd]
  | finish => left; simp [St.doAct, St.release, St.slot, upd]
  | again k =>
    have hsl : ∀ t : St, t.slots = s.slots ++ [⟨(s.slot w).co, k⟩] → t.slot w = s.slot w := by
      intro t ht
      unfold St.slot
      rw [ht]
      exact slot_append h1.1 _
    by_cases hk : k = (s.slot w).place
    · right
      refine ⟨w, ?_⟩
      unfold St.release
      rw [hsl _ (by simp [St.doAct])]
      simp [St.doAct, upd, hk]
    · left
      unfold St.release
      rw [hsl _ (by simp [St.doAct])]
      simp [St.doAct, upd, hk]

/-- What was seen stays seen. -/
theorem doAct_log (s : St) (i : Nat) (a : Act) : ∃ m, (s.doAct i a).log = s.log ++ m := by
  cases a
  · exact ⟨[], by simp [St.doAct]⟩
  · exact ⟨[], by simp [St.doAct]⟩
  · exact ⟨_, rfl⟩
  · exact ⟨[], by simp [St.doAct]⟩

theorem release_log (s : St) (w : Nat) (o : Nat → Obs) : ∃ m, (s.release w o).log = s.log ++ m := by
  unfold St.release
  dsimp only
  split
  · split
    · split
      · exact ⟨_, rfl⟩
      · exact ⟨[], by simp⟩
    · exact ⟨[], by simp⟩
  · exact ⟨[], by simp⟩

theorem handler_log (s : St) (w n : Nat) : ∃ m, (s.handler w n).log = s.log ++ m := by
  unfold St.handler
  dsimp only
  split
  · split
    · exact ⟨_, rfl⟩
    · exact ⟨[], by simp⟩
  · exact ⟨[], by simp⟩

theorem kill_log (l : List Nat) (s : St) : ∃ m, (l.foldl (fun s w => s.release w .dropped) s).log = s.log ++ m := by
  induction l generalizing s with
  | nil => exact ⟨[], by simp⟩
  | cons w l ih =>
    obtain ⟨m1, h1⟩ := release_log s w .dropped
    obtain ⟨m2, h2⟩ := ih (s.release w .dropped)
    exact ⟨m1 ++ m2, by rw [List.foldl_cons, h2, h1, List.append_assoc]⟩

theorem step_log (s : St) (e : Ev) : ∃ m, (s.step e).log = s.log ++ m := by
  unfold St.step
  split
  · exact ⟨[], by simp⟩
  · cases e with
    | go i a => exact doAct_log s i a
    | emit => exact ⟨_, rfl⟩
    | call =>
      dsimp only
      split
      · exact ⟨[], by simp⟩
      · split
        · exact ⟨[], by simp⟩
        · split
          · exact handler_log _ _ _
          · exact ⟨[], by simp⟩
    | act a =>
      dsimp only
      split
      · rename_i n todo w fs _
        obtain ⟨m1, h1⟩ := doAct_log { s with stack := ⟨n, todo, none⟩ :: fs } (s.slot w).co a
        obtain ⟨m2, h2⟩ := release_log ({ s with stack := ⟨n, todo, none⟩ :: fs }.doAct (s.slot w).co a) w .gone
        exact ⟨m1 ++ m2, by rw [h2, h1, List.append_assoc]⟩
      · exact ⟨[], by simp⟩
    | kill =>
      obtain ⟨m, hm⟩ := kill_log s.conn { s with sig := false, conn := [], log := s.log ++ [.killed] }
      exact ⟨.killed :: m, by dsimp only; rw [hm]; simp⟩

theorem step_bad {s : St} (e : Ev) (h : s.ub = true ∨ ∃ w, Obs.gone w ∈ s.log) :
    (s.step e).ub = true ∨ ∃ w, Obs.gone w ∈ (s.step e).log := by
  rcases h with h | ⟨w, h⟩
  · left
    simp [St.step, h]
  · obtain ⟨m, hm⟩ := step_log s e
    exact .inr ⟨w, by rw [hm]; simp [h]⟩

end Cobalt.Sig
