import Verif.Hub.Spec
import Verif.Net.Tree
/-! Helper: every history of the hub is one of a network. -/
namespace Cobalt.Hub
open Net (Act Res At NI started begun done)
open Chan (upd)

theorem act_route (A B : Nat → List Act) (s : Net.St) (p : Nat) (conn : Bool) (a : Act) :
    s.act (route A) p conn a = s.act (route B) p conn a := rfl

theorem on_route (A B : Nat → List Act) (s : Net.St) (c : Nat) (e : Chan.Ev) :
    s.on (route A) c e = s.on (route B) c e := rfl

/-- The hub writes, the sessions read. -/
structure Ok (A : Nat → List Act) : Prop where
  hub : ∀ a ∈ A 0, ∃ c v, a = .write c v
  ses : ∀ i, ∀ a ∈ A (i + 1), a = .read i

theorem getD_mem {l : List Act} {k : Nat} {a : Act} (h : l.getD k .stop = a) (ha : a ≠ .stop) : a ∈ l := by
  rw [List.getD_eq_getElem?_getD] at h
  cases e : l[k]? with
  | none => rw [e] at h; exact absurd h.symm ha
  | some b =>
    rw [e] at h
    simp at h
    subst h
    exact List.mem_of_getElem? e

theorem Ok.proper {A : Nat → List Act} (h : Ok A) : (route A).proper := by
  refine ⟨?_, ?_, ?_⟩
  · intro p l c hp
    have hm : Act.read c ∈ A p := getD_mem hp (by simp)
    cases p with
    | zero => obtain ⟨_, _, e⟩ := h.hub _ hm; cases e
    | succ i => have := h.ses i _ hm; cases this; rfl
  · intro p l c v hp
    have hm : Act.write c v ∈ A p := getD_mem hp (by simp)
    cases p with
    | zero => rfl
    | succ i => have := h.ses i _ hm; cases this
  · intro p l c hp
    have hm : Act.close c ∈ A p := getD_mem hp (by simp)
    cases p with
    | zero => obtain ⟨_, _, e⟩ := h.hub _ hm; cases e
    | succ i => have := h.ses i _ hm; cases this

/-- What a coroutine is busy with. -/
def busy (a : At) : Nat := if a = .idle then 0 else 1

/-- The history is one of a network whose coroutines do at least what has been done. -/
structure HI (cap : Nat) (s : St) : Prop where
  cnt : ∀ p, (s.did p).length = (s.net.hist p).length + busy (s.net.pos p)
  ok : Ok s.did
  sim : ∀ A : Nat → List Act, (∀ p, s.did p <+: A p) → ∃ es, Net.run (route A) (fun _ => cap) es = s.net

theorem HI.init (cap : Nat) : HI cap (St.init cap) := by
  refine ⟨fun p => rfl, ⟨by simp [St.init], by simp [St.init]⟩, fun A _ => ⟨[], rfl⟩⟩

theorem cnt_on {s : Net.St} {A : Nat → List Act} {c : Nat} {e : Chan.Ev} (p : Nat) :
    ((s.on (route A) c e).hist p).length + busy ((s.on (route A) c e).pos p) = (s.hist p).length + busy (s.pos p) := by
  rcases Net.on_moves (route A) s c p e with ⟨h1, h2⟩ | ⟨h1, h2, x, h3⟩
  · rw [h1, h2]
  · rw [h2, h3]
    simp [busy, h1]

/-- A read or a write, by a coroutine that is idle. -/
theorem cnt_act {s : Net.St} {A : Nat → List Act} {p : Nat} {conn : Bool} {a : Act} (hp : s.pos p = .idle)
    (ha : (∃ c, a = .read c) ∨ ∃ c v, a = .write c v) (q : Nat) :
    ((s.act (route A) p conn a).hist q).length + busy ((s.act (route A) p conn a).pos q) =
      (s.hist q).length + busy (s.pos q) + (if q = p then 1 else 0) := by
  have key : ∀ (t : Net.St) (x : At), x ≠ .idle → t.hist = s.hist → t.pos = upd s.pos p x → ∀ c e,
      ((t.on (route A) c e).hist q).length + busy ((t.on (route A) c e).pos q) =
        (s.hist q).length + busy (s.pos q) + (if q = p then 1 else 0) := by
    intro t x hx h1 h2 c e
    rw [cnt_on, h1, h2]
    by_cases hq : q = p
    · subst hq; rw [Net.upd_self, hp]; simp [busy, hx]
    · rw [Net.upd_ne _ _ hq]; simp [hq]
  rcases ha with ⟨c, rfl⟩ | ⟨c, v, rfl⟩
  · exact key { s with ch := upd s.ch c ((s.ch c).step .mkR), pos := upd s.pos p (.reading c (s.ch c).nextR) }
      (.reading c (s.ch c).nextR) (by simp) rfl rfl _ _
  · exact key { s with ch := upd s.ch c ((s.ch c).step .mkW), vals := upd s.vals c (s.vals c ++ [v])
                       pos := upd s.pos p (.writing c (s.ch c).nextW) }
      (.writing c (s.ch c).nextW) (by simp) rfl rfl _ _

theorem HI.go {cap : Nat} {s : St} (h : HI cap s) {p : Nat} (conn : Bool) {a : Act} (hp : s.net.pos p = .idle)
    (ha : (∃ i, p = i + 1 ∧ a = .read i) ∨ (p = 0 ∧ ∃ c v, a = .write c v)) : HI cap (s.go p conn a) := by
  have ha' : (∃ c, a = .read c) ∨ ∃ c v, a = .write c v := by
    rcases ha with ⟨i, -, e⟩ | ⟨-, e⟩
    · exact .inl ⟨i, e⟩
    · exact .inr e
  refine ⟨fun q => ?_, ⟨?_, ?_⟩, fun A hA => ?_⟩
  · simp only [St.go]
    rw [cnt_act hp ha', ← h.cnt q]
    by_cases hq : q = p
    · subst hq; rw [Net.upd_self]; simp
    · rw [Net.upd_ne _ _ hq]; simp [hq]
  · intro b hb
    simp only [St.go] at hb
    by_cases hq : 0 = p
    · subst hq
      rw [Net.upd_self] at hb
      rcases List.mem_append.1 hb with hb | hb
      · exact h.ok.hub b hb
      · rw [List.mem_singleton] at hb
        rcases ha with ⟨i, hi, -⟩ | ⟨-, e⟩
        · cases hi
        · rw [hb]; exact e
    · rw [Net.upd_ne _ _ hq] at hb; exact h.ok.hub b hb
  · intro i b hb
    simp only [St.go] at hb
    by_cases hq : i + 1 = p
    · subst hq
      rw [Net.upd_self] at hb
      rcases List.mem_append.1 hb with hb | hb
      · exact h.ok.ses i b hb
      · rw [List.mem_singleton] at hb
        rcases ha with ⟨j, hi, e⟩ | ⟨h0, -⟩
        · cases hi; rw [hb]; exact e
        · cases h0
    · rw [Net.upd_ne _ _ hq] at hb; exact h.ok.ses i b hb
  · have hA' : ∀ q, s.did q <+: A q := by
      intro q
      have := hA q
      simp only [St.go] at this
      by_cases hq : q = p
      · subst hq; rw [Net.upd_self] at this; exact (List.prefix_append _ _).trans this
      · rw [Net.upd_ne _ _ hq] at this; exact this
    obtain ⟨es, hes⟩ := h.sim A hA'
    refine ⟨es ++ [.go p conn], ?_⟩
    rw [Net.run_snoc, hes]
    have hl : (route A).act p (s.net.hist p) = a := by
      have h1 := hA p
      simp only [St.go] at h1
      rw [Net.upd_self] at h1
      obtain ⟨t, ht⟩ := h1
      have h2 := h.cnt p
      rw [hp] at h2
      simp [busy] at h2
      simp only [route]
      rw [← ht, ← h2, List.getD_eq_getElem?_getD]
      simp
    simp only [Net.St.step, hp, if_true, hl]
    rfl

theorem HI.same {cap : Nat} {s t : St} (h : HI cap s) (h1 : t.net = s.net) (h2 : t.did = s.did) : HI cap t := by
  obtain ⟨a, b, c⟩ := h
  refine ⟨?_, ?_, ?_⟩
  · rw [h1, h2]; exact a
  · rw [h2]; exact b
  · rw [h1, h2]; exact c

theorem HI.step {cap : Nat} {s : St} (h : HI cap s) (e : Ev) : HI cap (s.step e) := by
  cases e with
  | update v o =>
    simp only [St.step]
    split
    · exact h.same rfl rfl
    · exact h
  | sub =>
    simp only [St.step]
    split
    · exact h.same rfl rfl
    · exact h
  | leave i =>
    simp only [St.step]
    split
    · exact h.same rfl rfl
    · exact h
  | hub conn =>
    simp only [St.step]
    split
    · rename_i hp
      cases s.todo with
      | nil => exact h
      | cons c cs =>
        simp only [St.next]
        split
        · exact h.same rfl rfl
        · exact HI.go (s := { s with todo := cs }) (h.same rfl rfl) conn hp (.inr ⟨rfl, _, _, rfl⟩)
    · exact h
  | read i conn =>
    simp only [St.step]
    split
    · rename_i hp
      exact h.go conn hp.2.2 (.inl ⟨i, rfl, rfl⟩)
    · exact h
  | run c k =>
    simp only [St.step]
    refine ⟨fun p => ?_, h.ok, fun A hA => ?_⟩
    · dsimp only
      rw [cnt_on]; exact h.cnt p
    · obtain ⟨es, hes⟩ := h.sim A hA
      refine ⟨es ++ [.run c k], ?_⟩
      rw [Net.run_snoc, hes]
      rfl

theorem HI.steps {cap : Nat} {s : St} (h : HI cap s) (es : List Ev) : HI cap (s.steps es) := by
  induction es generalizing s with
  | nil => exact h
  | cons e es ih => exact ih (h.step e)

theorem HI.run (cap : Nat) (es : List Ev) : HI cap (Hub.run cap es) := (HI.init cap).steps es

theorem HI.ni {cap : Nat} {s : St} (h : HI cap s) : NI (route s.did) s.net := by
  obtain ⟨es, hes⟩ := h.sim s.did fun _ => List.prefix_refl _
  rw [← hes]
  exact NI.run h.ok.proper _ es

/-! ## What has been begun -/

theorem done_route (A : Nat → List Act) (p : Nat) (h : List Res) (hl : h.length ≤ (A p).length) :
    done ((route A).act p) h = (A p).take h.length := by
  apply List.ext_getElem?
  intro k
  simp only [done, route]
  rw [List.getElem?_map, List.getElem?_take]
  by_cases hk : k < h.length
  · rw [List.getElem?_range hk, if_pos hk]
    simp only [Option.map_some]
    rw [List.getD_eq_getElem?_getD, List.length_take, Nat.min_eq_left (by omega), List.getElem?_eq_getElem (by omega)]
    rfl
  · rw [if_neg hk, List.getElem?_eq_none (by simp; omega)]
    rfl

theorem HI.begun_did {cap : Nat} {s : St} (h : HI cap s) (p : Nat) : started (route s.did) s.net p = s.did p := by
  have hc := h.cnt p
  unfold Net.started begun
  by_cases hp : s.net.pos p = .idle
  · rw [hp] at hc
    simp [busy] at hc
    rw [if_pos hp, done_route _ _ _ (by omega), ← hc, List.take_length]
  · simp [busy, hp] at hc
    rw [if_neg hp, done_route _ _ _ (by omega)]
    simp only [route]
    rw [List.getD_eq_getElem?_getD, List.getElem?_eq_getElem (by omega)]
    simp only [Option.getD_some]
    have e : (s.did p).take (s.net.hist p).length ++ [(s.did p)[(s.net.hist p).length]] =
        (s.did p).take ((s.net.hist p).length + 1) := by
      rw [List.take_succ, List.getElem?_eq_getElem (by omega)]; rfl
    rw [e, ← hc, List.take_length]

end Cobalt.Hub
