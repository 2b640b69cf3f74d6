import Verif.Dead.Spec
import Verif.Lock.Phase
/-!
# Lemmas for `Dead/Props.lean`
-/
namespace Cobalt.Dead

open Lock (Calm Phase)

/-- One semaphore. -/
structure Lk (users : Nat) (k : BitVec 64) (s : Lock.St) : Prop where
  inv : ∃ l, Lock.Inv k s l
  us : s.users = users
  wk : VChan.Wk s.ch none
  calm : Calm s.ch

theorem Lk.step {users : Nat} {k : BitVec 64} {s : Lock.St} (h : Lk users k s) (hN : users < 2 ^ 64) (e : Lock.Ev)
    (hs : Lock.Spares s e) (hc : Calm (s.step e).ch) : Lk users k (s.step e) := by
  obtain ⟨l, hi⟩ := h.inv
  have hN' : s.users < 2 ^ 64 := by rw [h.us]; exact hN
  obtain ⟨l', hi', _⟩ := hi.step hN' e
  exact ⟨⟨l', hi'⟩, h.us, hi.wk hN' e hs h.wk, hc⟩

/-- Somebody is inside a semaphore if somebody waits and nothing is posted. -/
theorem Lk.someone {users : Nat} {k : BitVec 64} {s : Lock.St} (h : Lk users k s) (hk : 0 < k.toNat)
    (hp : s.ch.posted = []) {u i : Nat} (hu : s.ph u = .wait i) : ∃ v, s.ph v = .inside := by
  obtain ⟨l, hi⟩ := h.inv
  have hq : i ∈ s.ch.wq := by
    rcases hi.ok.wf.wsusp i (hi.wait u i hu) with h1 | h1 | h1
    · exact (hi.ok.wf.wwait i h1).2
    · rw [hp] at h1; cases h1
    · cases h1
  have := h.wk.w (List.ne_nil_of_mem hq)
  rw [hp, hi.limit, hi.cnt] at this
  simp at this
  match l, this, hi with
  | [], this, _ => simp at this; omega
  | v :: l, _, hi => exact ⟨v, (hi.mem v).1 (by simp)⟩

/-- What coroutine `u` has. -/
structure Has (n : Nat) (s : St) (u : Nat) (h : List Nat) : Prop where
  mem : ∀ j, j ∈ h ↔ (s.lk j).ph u ≠ .out
  ord : Ordered n h (s.prog u)
  lt : ∀ j ∈ h, j < n
  top : ∀ j i, (s.lk j).ph u = .wait i → s.on u = j ∧ ∀ x ∈ h, x ≤ j

structure GI (users n : Nat) (k : Nat → BitVec 64) (s : St) : Prop where
  lk : ∀ j, Lk users (k j) (s.lk j)
  has : ∀ u, ∃ h, Has n s u h
  others : ∀ u, users ≤ u → s.prog u = []

theorem GI.init {users n : Nat} {k : Nat → BitVec 64} {prog : Nat → List Cmd} (h : Setup users n k prog) :
    GI users n k (St.init users k prog) := by
  refine ⟨fun j => ⟨⟨[], Lock.Inv.init _ _⟩, rfl, VChan.Wk.init _, fun i => rfl⟩, fun u => ⟨[], ?_⟩, h.others⟩
  exact ⟨by simp [St.init, Lock.St.init], h.ordered u, by simp, by simp [St.init, Lock.St.init]⟩

theorem not_wait {s : St} {n u : Nat} {h : List Nat} (hh : Has n s u h) (hb : s.blocked u = false) (j i : Nat) :
    (s.lk j).ph u ≠ .wait i := by
  intro hw
  have := (hh.top j i hw).1
  unfold St.blocked at hb
  rw [this, hw] at hb
  cases hb

/-- Not suspended and not outside is inside. -/
theorem inside_of {users : Nat} {k : BitVec 64} {s : Lock.St} (h : Lk users k s) {u : Nat} (h1 : s.ph u ≠ .out)
    (h2 : ∀ i, s.ph u ≠ .wait i) : s.ph u = .inside := by
  obtain ⟨l, hi⟩ := h.inv
  rcases hp : s.ph u with _ | i | _ | j
  · exact absurd hp h1
  · exact absurd hp (h2 i)
  · rfl
  · exact absurd hp (hi.stays u j)

/-- Every event keeps what is known. -/
theorem GI.step {users n : Nat} {k : Nat → BitVec 64} (hN : users < 2 ^ 64) {s : St} (g : GI users n k s) (e : Ev) :
    GI users n k (s.step e) := by
  cases e with
  | run j m =>
    obtain ⟨l, hi⟩ := (g.lk j).inv
    obtain ⟨hp, hc, _⟩ := Lock.run_ph hi m (g.lk j).calm
    have hl' : ∀ i, Lk users (k i) (upd s.lk j ((s.lk j).step (.run m)) i) := by
      intro i
      rw [upd_apply]; split
      · next e => rw [e]; exact (g.lk j).step hN _ trivial hc
      · exact g.lk i
    refine ⟨hl', fun u => ?_, g.others⟩
    obtain ⟨h, hh⟩ := g.has u
    have hph : ∀ i, (upd s.lk j ((s.lk j).step (.run m)) i).ph u = (s.lk i).ph u ∨
        ((∃ x, (s.lk i).ph u = .wait x) ∧ (upd s.lk j ((s.lk j).step (.run m)) i).ph u = .inside) := by
      intro i
      rw [upd_apply]; split
      · next e => rw [e]; exact hp u
      · exact Or.inl rfl
    refine ⟨h, ⟨fun i => ?_, hh.ord, hh.lt, fun i x hx => ?_⟩⟩
    · rw [hh.mem i]
      show _ ↔ (upd s.lk j ((s.lk j).step (.run m)) i).ph u ≠ .out
      rcases hph i with e | ⟨⟨x, e1⟩, e2⟩
      · rw [e]
      · rw [e1, e2]; simp
    · have hx : (upd s.lk j ((s.lk j).step (.run m)) i).ph u = .wait x := hx
      rcases hph i with e | ⟨⟨x, e1⟩, e2⟩
      · rw [e] at hx; exact hh.top i x hx
      · rw [e2] at hx; cases hx
  | go u conn =>
    show GI users n k (if s.blocked u then s else s.cmd u conn (s.prog u))
    cases hb : s.blocked u with
    | true => simpa using g
    | false =>
      simp only [Bool.false_eq_true, if_false]
      obtain ⟨h, hh⟩ := g.has u
      rcases hp : s.prog u with _ | ⟨c, p⟩
      · exact g
      have hu : u < users := by
        refine Classical.byContradiction fun hx => ?_
        rw [g.others u (by omega)] at hp; cases hp
      have ho := hh.ord
      rw [hp] at ho
      have hoth : ∀ v, users ≤ v → upd s.prog u p v = [] := by
        intro v hv
        rw [upd_apply, if_neg (by omega)]
        exact g.others v hv
      cases c with
      | take j =>
        obtain ⟨h1, h2, h3⟩ := ho
        have hout : (s.lk j).ph u = .out := by
          refine Classical.byContradiction fun hx => ?_
          have := h2 j ((hh.mem j).2 hx)
          omega
        obtain ⟨l, hi⟩ := (g.lk j).inv
        obtain ⟨⟨q, hq, hph⟩, hc, _⟩ := Lock.acquire_ph hi conn (by rw [(g.lk j).us]; exact hu) hout (g.lk j).calm
        have hph' : ∀ i v, (upd s.lk j ((s.lk j).step (.acquire u conn)) i).ph v =
            if i = j ∧ v = u then q else (s.lk i).ph v := by
          intro i v
          rw [upd_apply]
          by_cases hij : i = j
          · subst hij; simp [hph v]
          · simp [hij]
        have hqo : q ≠ .out := by rcases hq with rfl | ⟨_, rfl⟩ <;> simp
        refine ⟨fun i => ?_, fun v => ?_, hoth⟩
        · show Lk users (k i) (upd s.lk j ((s.lk j).step (.acquire u conn)) i)
          rw [upd_apply]; split
          · next e => rw [e]; exact (g.lk j).step hN _ trivial hc
          · exact g.lk i
        · by_cases hv : v = u
          · subst hv
            refine ⟨j :: h, ⟨fun i => ?_, ?_, ?_, ?_⟩⟩
            · show _ ↔ (upd s.lk j _ i).ph v ≠ .out
              rw [hph' i v, List.mem_cons, hh.mem i]
              by_cases hij : i = j
              · simp [hij, hqo]
              · simp [hij]
            · show Ordered n (j :: h) (upd s.prog v p v)
              rw [upd_apply, if_pos rfl]; exact h3
            · intro i hi
              rcases List.mem_cons.1 hi with rfl | hi
              · exact h1
              · exact hh.lt i hi
            · intro i x hx
              have hx : (upd s.lk j _ i).ph v = .wait x := hx
              rw [hph' i v] at hx
              by_cases hij : i = j
              · subst hij
                refine ⟨by show upd s.on v i v = i; simp [upd_apply], fun y hy => ?_⟩
                rcases List.mem_cons.1 hy with rfl | hy
                · omega
                · exact Nat.le_of_lt (h2 y hy)
              · simp only [hij, false_and, if_false] at hx
                exact absurd hx (not_wait hh hb i x)
          · obtain ⟨h', hh'⟩ := g.has v
            refine ⟨h', ⟨fun i => ?_, ?_, hh'.lt, ?_⟩⟩
            · show _ ↔ (upd s.lk j _ i).ph v ≠ .out
              rw [hph' i v, hh'.mem i]; simp [hv]
            · show Ordered n h' (upd s.prog u p v)
              rw [upd_apply, if_neg hv]; exact hh'.ord
            · intro i x hx
              have hx : (upd s.lk j _ i).ph v = .wait x := hx
              rw [hph' i v] at hx
              simp only [hv, and_false, if_false] at hx
              refine ⟨?_, (hh'.top i x hx).2⟩
              show upd s.on u j v = i
              rw [upd_apply, if_neg hv]; exact (hh'.top i x hx).1
      | give j =>
        obtain ⟨h1, h2⟩ := ho
        have hin : (s.lk j).ph u = .inside := inside_of (g.lk j) ((hh.mem j).1 h1) (not_wait hh hb j)
        obtain ⟨l, hi⟩ := (g.lk j).inv
        obtain ⟨hph, hc, _⟩ := Lock.release_ph hi conn (by rw [(g.lk j).us]; exact hu) hin (g.lk j).calm
        have hph' : ∀ i v, (upd s.lk j ((s.lk j).step (.release u conn)) i).ph v =
            if i = j ∧ v = u then .out else (s.lk i).ph v := by
          intro i v
          rw [upd_apply]
          by_cases hij : i = j
          · subst hij; simp [hph v]
          · simp [hij]
        refine ⟨fun i => ?_, fun v => ?_, hoth⟩
        · show Lk users (k i) (upd s.lk j ((s.lk j).step (.release u conn)) i)
          rw [upd_apply]; split
          · next e => rw [e]; exact (g.lk j).step hN _ trivial hc
          · exact g.lk i
        · by_cases hv : v = u
          · subst hv
            refine ⟨h.filter (· ≠ j), ⟨fun i => ?_, ?_, ?_, ?_⟩⟩
            · show _ ↔ (upd s.lk j _ i).ph v ≠ .out
              rw [hph' i v, List.mem_filter, hh.mem i]
              by_cases hij : i = j
              · simp [hij]
              · simp [hij]
            · show Ordered n (h.filter (· ≠ j)) (upd s.prog v p v)
              rw [upd_apply, if_pos rfl]; exact h2
            · exact fun i hi => hh.lt i (List.mem_filter.1 hi).1
            · intro i x hx
              have hx : (upd s.lk j _ i).ph v = .wait x := hx
              rw [hph' i v] at hx
              split at hx
              · cases hx
              · exact absurd hx (not_wait hh hb i x)
          · obtain ⟨h', hh'⟩ := g.has v
            refine ⟨h', ⟨fun i => ?_, ?_, hh'.lt, ?_⟩⟩
            · show _ ↔ (upd s.lk j _ i).ph v ≠ .out
              rw [hph' i v, hh'.mem i]; simp [hv]
            · show Ordered n h' (upd s.prog u p v)
              rw [upd_apply, if_neg hv]; exact hh'.ord
            · intro i x hx
              have hx : (upd s.lk j _ i).ph v = .wait x := hx
              rw [hph' i v] at hx
              simp only [hv, and_false, if_false] at hx
              exact hh'.top i x hx

theorem GI.steps {users n : Nat} {k : Nat → BitVec 64} (hN : users < 2 ^ 64) (es : List Ev) :
    ∀ {s : St}, GI users n k s → GI users n k (s.steps es) := by
  induction es with
  | nil => exact fun g => g
  | cons e es ih => exact fun g => ih (g.step hN e)

/-- Nobody waits when nothing is posted and nobody can go on. -/
theorem GI.none_waits {users n : Nat} {k : Nat → BitVec 64} {s : St} (g : GI users n k s) (hk : ∀ j, 0 < (k j).toNat)
    (hp : ∀ j, (s.lk j).ch.posted = []) (hb : ∀ u, s.blocked u = true ∨ s.prog u = []) :
    ∀ (d j u i : Nat), n - j ≤ d → (s.lk j).ph u ≠ .wait i := by
  intro d
  induction d with
  | zero =>
    intro j u i hd hw
    obtain ⟨h, hh⟩ := g.has u
    have := hh.lt j ((hh.mem j).2 (by rw [hw]; simp))
    omega
  | succ d ih =>
    intro j u i hd hw
    obtain ⟨v, hv⟩ := (g.lk j).someone (hk j) (hp j) hw
    obtain ⟨h, hh⟩ := g.has v
    have hj : j ∈ h := (hh.mem j).2 (by rw [hv]; simp)
    rcases hb v with hx | hx
    · unfold St.blocked isWait at hx
      split at hx
      · next y hy =>
        have hle := (hh.top _ _ hy).2 j hj
        have hne : s.on v ≠ j := by
          intro e
          rw [e, hv] at hy
          cases hy
        have := hh.lt j hj
        exact ih (s.on v) v y (by omega) hy
      · cases hx
    · have := hh.ord
      rw [hx] at this
      have : h = [] := this
      rw [this] at hj
      cases hj

/-! ## The measure -/

def sumTo (f : Nat → Nat) (n : Nat) : Nat := ((List.range n).map f).sum

theorem sumTo_succ (f : Nat → Nat) (n : Nat) : sumTo f (n + 1) = sumTo f n + f n := by
  simp [sumTo, List.range_succ]

theorem sumTo_same {f g : Nat → Nat} {n : Nat} (h : ∀ i, i < n → f i = g i) : sumTo f n = sumTo g n := by
  induction n with
  | zero => rfl
  | succ n ih => rw [sumTo_succ, sumTo_succ, ih fun i hi => h i (by omega), h n (by omega)]

theorem sumTo_upd {f g : Nat → Nat} {i : Nat} (h : ∀ j, j ≠ i → f j = g j) :
    ∀ n, i < n → sumTo f n + g i = sumTo g n + f i := by
  intro n
  induction n with
  | zero => exact fun hi => absurd hi (by omega)
  | succ n ih =>
    intro hi
    rw [sumTo_succ, sumTo_succ]
    by_cases hin : i = n
    · subst hin
      rw [sumTo_same (f := f) (g := g) fun j hj => h j (by omega)]
      omega
    · have := ih (by omega)
      rw [h n (fun e => hin e.symm)]
      omega

theorem sumTo_le {f g : Nat → Nat} {i : Nat} (h : ∀ j, j ≠ i → f j = g j) (hle : f i ≤ g i + 1) (n : Nat) :
    sumTo f n ≤ sumTo g n + 1 := by
  by_cases hi : i < n
  · have := sumTo_upd h n hi; omega
  · rw [sumTo_same fun j hj => h j (by omega)]; omega

/-- Commands count twice, what is posted once. -/
def todo (users n : Nat) (s : St) : Nat :=
  2 * sumTo (fun u => (s.prog u).length) users + sumTo (fun j => (s.lk j).ch.posted.length) n

/-- What is posted is posted for one of the semaphores. -/
theorem GI.posted_lt {users n : Nat} {k : Nat → BitVec 64} {s : St} (g : GI users n k s) {j : Nat}
    (hp : (s.lk j).ch.posted ≠ []) : j < n := by
  obtain ⟨l, hi⟩ := (g.lk j).inv
  obtain ⟨t, ht⟩ := List.exists_mem_of_ne_nil _ hp
  cases t with
  | r i => exact absurd ht (hi.ok.postR i)
  | w i =>
    obtain ⟨u, hu⟩ := hi.has i (hi.ok.wf.wpost i ht).1
    obtain ⟨h, hh⟩ := g.has u
    exact hh.lt j ((hh.mem j).2 (by rw [hu]; simp))

theorem GI.less {users n : Nat} {k : Nat → BitVec 64} {s : St} (g : GI users n k s) (e : Ev) (ha : Acts s e) :
    todo users n (s.step e) + 1 ≤ todo users n s := by
  cases e with
  | run j m =>
    have ha : m < (s.lk j).ch.posted.length := ha
    have hj : j < n := g.posted_lt (by intro h; rw [h] at ha; simp at ha)
    obtain ⟨l, hi⟩ := (g.lk j).inv
    obtain ⟨_, _, hp⟩ := Lock.run_ph hi m (g.lk j).calm
    have := sumTo_upd (f := fun i => ((s.step (.run j m)).lk i).ch.posted.length)
      (g := fun i => (s.lk i).ch.posted.length) (i := j)
      (fun i hi => by show (upd s.lk j _ i).ch.posted.length = _; rw [upd_apply, if_neg hi]) n hj
    have e1 : (s.step (.run j m)).lk j = (s.lk j).step (.run m) := by
      show upd s.lk j _ j = _; simp [upd_apply]
    rw [e1, hp, List.length_eraseIdx, if_pos ha] at this
    have e2 : (s.step (.run j m)).prog = s.prog := rfl
    unfold todo
    rw [e2]
    omega
  | go u conn =>
    obtain ⟨hb, hne⟩ := ha
    obtain ⟨h, hh⟩ := g.has u
    rcases hp : s.prog u with _ | ⟨c, p⟩
    · exact absurd hp hne
    have hu : u < users := by
      refine Classical.byContradiction fun hx => ?_
      exact hne (g.others u (by omega))
    have ho := hh.ord
    rw [hp] at ho
    have e0 : s.step (.go u conn) = s.cmd u conn (c :: p) := by
      show (if s.blocked u then s else s.cmd u conn (s.prog u)) = _
      rw [hb, hp]; rfl
    rw [e0]
    have hpr : (s.cmd u conn (c :: p)).prog = upd s.prog u p := by cases c <;> rfl
    have h1 := sumTo_upd (f := fun v => (upd s.prog u p v).length) (g := fun v => (s.prog v).length) (i := u)
      (fun v hv => by rw [upd_apply, if_neg hv]) users hu
    simp only [upd_apply, if_true, hp, List.length_cons] at h1
    have h2 : sumTo (fun j => ((s.cmd u conn (c :: p)).lk j).ch.posted.length) n ≤
        sumTo (fun j => (s.lk j).ch.posted.length) n + 1 := by
      cases c with
      | take j =>
        obtain ⟨_, h2, _⟩ := ho
        have hout : (s.lk j).ph u = .out := by
          refine Classical.byContradiction fun hx => ?_
          have := h2 j ((hh.mem j).2 hx)
          omega
        obtain ⟨l, hi⟩ := (g.lk j).inv
        obtain ⟨_, _, hq⟩ := Lock.acquire_ph hi conn (by rw [(g.lk j).us]; exact hu) hout (g.lk j).calm
        refine sumTo_le (i := j) (fun i hi => ?_) ?_ n
        · show (upd s.lk j _ i).ch.posted.length = _
          rw [upd_apply, if_neg hi]
        · show (upd s.lk j _ j).ch.posted.length ≤ _
          rw [upd_apply, if_pos rfl, hq]; omega
      | give j =>
        obtain ⟨h1, _⟩ := ho
        have hin : (s.lk j).ph u = .inside := inside_of (g.lk j) ((hh.mem j).1 h1) (not_wait hh hb j)
        obtain ⟨l, hi⟩ := (g.lk j).inv
        obtain ⟨_, _, hq⟩ := Lock.release_ph hi conn (by rw [(g.lk j).us]; exact hu) hin (g.lk j).calm
        refine sumTo_le (i := j) (fun i hi => ?_) ?_ n
        · show (upd s.lk j _ i).ch.posted.length = _
          rw [upd_apply, if_neg hi]
        · show (upd s.lk j _ j).ch.posted.length ≤ _
          rw [upd_apply, if_pos rfl]; exact hq
    unfold todo
    rw [hpr]
    simp only [upd_apply]
    omega

theorem GI.bound {users n : Nat} {k : Nat → BitVec 64} (hN : users < 2 ^ 64) (es : List Ev) :
    ∀ {s : St}, GI users n k s → ActsAll s es → es.length ≤ todo users n s := by
  induction es with
  | nil => intro _ _ _; simp
  | cons e es ih =>
    intro s g ha
    have h1 := g.less e ha.1
    have h2 := ih (g.step hN e) ha.2
    simp only [List.length_cons]
    omega

end Cobalt.Dead
