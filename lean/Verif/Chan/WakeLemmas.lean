import Verif.Chan.PropsValues
/-!
# Lemmas for C97: enough posted operations for the values and the room there are
-/
namespace Cobalt.Chan

/-- A posted resumption that is going to take a value out of the buffer. -/
def St.takes (s : St) : Tok → Bool
  | .r i => (s.R i).direct.isNone && !(s.R i).cancelled
  | .w _ => false

/-- A posted resumption that is going to put a value into the buffer. -/
def St.puts (s : St) : Tok → Bool
  | .w i => !(s.W i).direct && !(s.W i).cancelled
  | .r _ => false

/-- `c` is about to be resumed. -/
structure Wk (s : St) (c : Option Tok) : Prop where
  r : s.rq ≠ [] → s.buf.length ≤ s.posted.countP s.takes + (if c.any s.takes then 1 else 0)
  w : s.wq ≠ [] → s.cap ≤ s.buf.length + s.posted.countP s.puts + (if c.any s.puts then 1 else 0)

theorem Wk.init (cap : Nat) : Wk (St.init cap) none := ⟨by simp [St.init], by simp [St.init]⟩

theorem countP_eq {p q : Tok → Bool} {l : List Tok} (h : ∀ x ∈ l, p x = q x) : l.countP p = l.countP q :=
  List.countP_congr fun x hx => by rw [h x hx]

theorem countP_eraseIdx (p : Tok → Bool) : ∀ (l : List Tok) (k : Nat) (t : Tok), l[k]? = some t →
    l.countP p = (l.eraseIdx k).countP p + (if p t then 1 else 0)
  | [], _, _, h => by simp at h
  | x :: l, 0, t, h => by
    simp only [List.getElem?_cons_zero, Option.some.injEq] at h
    subst h
    simp [List.countP_cons]
  | x :: l, k + 1, t, h => by
    simp only [List.getElem?_cons_succ] at h
    have := countP_eraseIdx p l k t h
    simp only [List.eraseIdx_cons_succ, List.countP_cons, this]
    omega

theorem Wk.unpost {s : St} {k : Nat} {t : Tok} (v : Wk s none) (hk : s.posted[k]? = some t) :
    Wk { s with posted := s.posted.eraseIdx k } (some t) := by
  constructor
  · intro h
    have := v.r h
    have e := countP_eraseIdx s.takes s.posted k t hk
    show s.buf.length ≤ (s.posted.eraseIdx k).countP s.takes + (if s.takes t then 1 else 0)
    simp at this
    omega
  · intro h
    have := v.w h
    have e := countP_eraseIdx s.puts s.posted k t hk
    show s.cap ≤ s.buf.length + (s.posted.eraseIdx k).countP s.puts + (if s.puts t then 1 else 0)
    simp at this
    omega

theorem Wk.weaken {s : St} (v : Wk s none) (t : Tok) : Wk s (some t) := by
  constructor
  · intro h; have := v.r h; simp at this; omega
  · intro h; have := v.w h; simp at this; omega

/-- Steps that leave the buffer and what the posted operations are going to do as they were. -/
theorem Wk.frame {s s' : St} {c : Option Tok} (v : Wk s c) (hcap : s'.cap = s.cap) (hb : s'.buf.length = s.buf.length)
    (hp : s'.posted = s.posted) (hr : s'.rq ≠ [] → s.rq ≠ []) (hw : s'.wq ≠ [] → s.wq ≠ [])
    (ht : ∀ x, (x ∈ s.posted ∨ c = some x) → s'.takes x = s.takes x ∧ s'.puts x = s.puts x) : Wk s' c := by
  have h1 : s.posted.countP s'.takes = s.posted.countP s.takes := countP_eq fun x hx => (ht x (Or.inl hx)).1
  have h2 : s.posted.countP s'.puts = s.posted.countP s.puts := countP_eq fun x hx => (ht x (Or.inl hx)).2
  have h3 : c.any s'.takes = c.any s.takes := by
    cases c with
    | none => rfl
    | some x => exact (ht x (Or.inr rfl)).1
  have h4 : c.any s'.puts = c.any s.puts := by
    cases c with
    | none => rfl
    | some x => exact (ht x (Or.inr rfl)).2
  constructor
  · intro h; rw [hb, hp, h1, h3]; exact v.r (hr h)
  · intro h; rw [hcap, hb, hp, h2, h4]; exact v.w (hw h)

theorem Wk.wakeWriter {s : St} (h : WF s none)
    (hr : s.rq ≠ [] → s.buf.length ≤ s.posted.countP s.takes)
    (hw : s.wq ≠ [] → s.cap ≤ s.buf.length + s.posted.countP s.puts + 1) :
    s.wakeWriter.ub = true ∨ Wk s.wakeWriter none := by
  have hlen := h.len
  unfold St.wakeWriter
  split
  · rename_i hq
    exact Or.inr ⟨fun h => by simpa using hr h, fun h => absurd hq h⟩
  · rename_i w rest hq
    have he : s.rq = [] := by rcases h.excl with h | h <;> simp_all
    have hlk := h.wlink w (by simp [hq])
    dsimp only
    split
    · split
      · rename_i hwt
        have hnp : Tok.w w ∉ s.posted := fun hm => by
          have := (h.wpost w hm).2.1
          rw [hwt] at this; exact absurd this (by simp)
        right
        refine ⟨fun h => absurd he h, fun hne => ?_⟩
        have h0 := hw (by rw [hq]; simp)
        have hcan : (s.W w).cancelled = false := by
          rcases hlk.2.2 with h1 | h1
          · exact h1.2.2
          · have := h1.2.1
            rw [hwt] at this; exact absurd this (by simp)
        have e1 : s.posted.countP (St.puts { s with
            wq := rest, W := upd s.W w { s.W w with waiting := false }, posted := s.posted ++ [.w w] }) =
            s.posted.countP s.puts := countP_eq fun x hx => by
          cases x with
          | r i => rfl
          | w i =>
            have : i ≠ w := fun e => hnp (e ▸ hx)
            simp [St.puts, upd_apply, this]
        have e2 : St.puts { s with
            wq := rest, W := upd s.W w { s.W w with waiting := false }, posted := s.posted ++ [.w w] } (.w w) = true := by
          simp [St.puts, upd_apply, hlk.1, hcan]
        show s.cap ≤ s.buf.length + (s.posted ++ [Tok.w w]).countP (St.puts { s with
            wq := rest, W := upd s.W w { s.W w with waiting := false }, posted := s.posted ++ [.w w] }) + 0
        rw [List.countP_append, e1, List.countP_cons, List.countP_nil, e2]
        simp only [if_true]
        omega
      · exact Or.inl rfl
    · rename_i hn
      right
      simp only [St.writeReady, Bool.or_eq_true, decide_eq_true_eq, not_or, Decidable.not_not, Bool.not_eq_true] at hn
      have hn1 : s.buf.length = s.cap := hn.1
      refine ⟨fun h => absurd he h, fun _ => ?_⟩
      show s.cap ≤ s.buf.length + _ + _
      omega

theorem Wk.wakeReader {s : St} (h : WF s none)
    (hr : s.rq ≠ [] → s.buf.length ≤ s.posted.countP s.takes + 1)
    (hw : s.wq ≠ [] → s.cap ≤ s.buf.length + s.posted.countP s.puts) :
    s.wakeReader.ub = true ∨ Wk s.wakeReader none := by
  unfold St.wakeReader
  split
  · rename_i hq
    exact Or.inr ⟨fun h => absurd hq h, fun h => by simpa using hw h⟩
  · rename_i w rest hq
    have he : s.wq = [] := by rcases h.excl with h | h <;> simp_all
    have hlk := h.rlink w (by simp [hq])
    dsimp only
    split
    · split
      · rename_i hwt
        have hnp : Tok.r w ∉ s.posted := fun hm => by
          have := (h.rpost w hm).2.1
          rw [hwt] at this; exact absurd this (by simp)
        right
        refine ⟨fun hne => ?_, fun h => absurd he h⟩
        have h0 := hr (by rw [hq]; simp)
        have hcan : (s.R w).cancelled = false := by
          rcases hlk.2 with h1 | h1
          · exact h1.2.2
          · have := h1.2.1
            rw [hwt] at this; exact absurd this (by simp)
        have e1 : s.posted.countP (St.takes { s with
            rq := rest, R := upd s.R w { s.R w with waiting := false }, posted := s.posted ++ [.r w] }) =
            s.posted.countP s.takes := countP_eq fun x hx => by
          cases x with
          | w i => rfl
          | r i =>
            have : i ≠ w := fun e => hnp (e ▸ hx)
            simp [St.takes, upd_apply, this]
        have e2 : St.takes { s with
            rq := rest, R := upd s.R w { s.R w with waiting := false }, posted := s.posted ++ [.r w] } (.r w) = true := by
          simp [St.takes, upd_apply, hlk.1, hcan]
        show s.buf.length ≤ (s.posted ++ [Tok.r w]).countP (St.takes { s with
            rq := rest, R := upd s.R w { s.R w with waiting := false }, posted := s.posted ++ [.r w] }) + 0
        rw [List.countP_append, e1, List.countP_cons, List.countP_nil, e2]
        simp only [if_true]
        omega
      · exact Or.inl rfl
    · rename_i hn
      right
      simp only [St.readReady, Bool.or_eq_true, decide_eq_true_eq, not_or, Decidable.not_not, Bool.not_eq_true] at hn
      have hn1 : s.buf = [] := hn.1
      refine ⟨fun _ => ?_, fun h => absurd he h⟩
      show s.buf.length ≤ _ + _
      rw [hn1]; simp

theorem takes_endR (s : St) (i : Nat) (res : RRes) : (s.endR i res).takes = s.takes := by
  funext x
  cases x with
  | w j => rfl
  | r j => simp only [St.takes, St.endR, upd_apply]; split <;> simp_all

theorem puts_endW (s : St) (i : Nat) (res : WRes) : (s.endW i res).puts = s.puts := by
  funext x
  cases x with
  | r j => rfl
  | w j => simp only [St.puts, St.endW, upd_apply]; split <;> simp_all

theorem Wk.resumeR {s : St} {i : Nat} (h : WF s (some (.r i))) (v : Wk s (some (.r i))) :
    (s.resumeR i).ub = true ∨ Wk (s.resumeR i) none := by
  have hl := h.len
  have hp : s.wq ≠ [] → s.cap ≤ s.buf.length + s.posted.countP s.puts := fun h => by simpa [St.puts] using v.w h
  have ht : s.rq ≠ [] → s.buf.length ≤ s.posted.countP s.takes + (if s.takes (.r i) = true then 1 else 0) := v.r
  unfold St.resumeR
  split
  · rename_i hc
    simp only [Bool.and_eq_true] at hc
    have := h.closedQ hc.1.1
    exact Or.inr ⟨fun h => absurd this.1 h, fun h => absurd this.2 h⟩
  · split
    · rename_i hc
      right
      have e : s.takes (.r i) = false := by simp [St.takes, hc]
      rw [e] at ht
      refine ⟨fun h => ?_, fun h => ?_⟩
      · rw [takes_endR]; simpa [St.endR] using ht h
      · show s.cap ≤ s.buf.length + s.posted.countP s.puts + 0
        simpa using hp h
    · rename_i hc
      split
      · exact Or.inl rfl
      · rename_i d hb hd
        have e : s.takes (.r i) = false := by simp [St.takes, hd]
        rw [e] at ht
        refine Wk.wakeWriter (h.endR _) ?_ ?_
        · rw [takes_endR]; simpa [St.endR] using ht
        · intro h; have := hp h; simp only [St.endR]; show s.cap ≤ s.buf.length + s.posted.countP s.puts + 1; omega
      · rename_i b bs hb hd
        have e : s.takes (.r i) = true := by simp [St.takes, hd, hc]
        rw [e] at ht
        have hlen : s.buf.length = bs.length + 1 := by rw [hb]; rfl
        refine Wk.wakeWriter ((h.endR _).setBuf' bs (by rw [hb] at hl; simp [St.endR] at hl ⊢; omega)) ?_ ?_
        · intro h
          have := ht h
          show bs.length ≤ s.posted.countP (s.endR i (.value b)).takes
          rw [takes_endR]
          simp at this; omega
        · intro h
          have := hp h
          show s.cap ≤ bs.length + s.posted.countP s.puts + 1
          omega
      · rename_i b bs d hb hd
        have e : s.takes (.r i) = false := by simp [St.takes, hd]
        rw [e] at ht
        have hlen : s.buf.length = bs.length + 1 := by rw [hb]; rfl
        have hlen2 : (pushBack s.cap bs d).length = bs.length + 1 := by
          rw [pushBack_lt d (by omega)]; simp
        refine Wk.wakeWriter ((h.endR _).setBuf' _ (length_pushBack _ _ _
          (by rw [hb] at hl; simp [St.endR] at hl ⊢; omega))) ?_ ?_
        · intro h
          have := ht h
          show (pushBack s.cap bs d).length ≤ s.posted.countP (s.endR i (.value b)).takes
          rw [takes_endR, hlen2]
          simp at this; omega
        · intro h
          have := hp h
          show s.cap ≤ (pushBack s.cap bs d).length + s.posted.countP s.puts + 1
          omega

theorem length_pushBack_le (cap : Nat) (b : List Nat) (x : Nat) : (pushBack cap b x).length ≤ b.length + 1 := by
  unfold pushBack
  split
  · omega
  · split
    · simp
    · simp

theorem Wk.resumeW {s : St} {i : Nat} (h : WF s (some (.w i))) (v : Wk s (some (.w i))) :
    (s.resumeW i).ub = true ∨ Wk (s.resumeW i) none := by
  have hl := h.len
  have ht : s.rq ≠ [] → s.buf.length ≤ s.posted.countP s.takes := fun h => by simpa [St.takes] using v.r h
  have hp : s.wq ≠ [] → s.cap ≤ s.buf.length + s.posted.countP s.puts + (if s.puts (.w i) = true then 1 else 0) := v.w
  unfold St.resumeW
  split
  · rename_i hc
    have := h.closedQ (h.wclosed i hc)
    exact Or.inr ⟨fun h => absurd this.1 h, fun h => absurd this.2 h⟩
  · split
    · rename_i hc
      right
      have e : s.puts (.w i) = false := by simp [St.puts, hc]
      rw [e] at hp
      refine ⟨fun h => ?_, fun h => ?_⟩
      · show s.buf.length ≤ s.posted.countP s.takes + 0
        simpa using ht h
      · rw [puts_endW]; simpa [St.endW] using hp h
    · rename_i hc
      split
      · rename_i hd
        have e : s.puts (.w i) = false := by simp [St.puts, hd]
        rw [e] at hp
        refine Wk.wakeReader (h.endW _) ?_ ?_
        · intro h; have := ht h; show s.buf.length ≤ s.posted.countP s.takes + 1; omega
        · rw [puts_endW]; simpa [St.endW] using hp
      · rename_i hd
        have e : s.puts (.w i) = true := by simp [St.puts, hd, hc]
        rw [e] at hp
        refine Wk.wakeReader ((h.endW _).setBuf _ _ (length_pushBack _ _ _ h.len)) ?_ ?_
        · intro h
          have := ht h
          have h2 := length_pushBack_le s.cap s.buf i
          show (pushBack s.cap s.buf i).length ≤ s.posted.countP s.takes + 1
          omega
        · intro h
          have := hp h
          show s.cap ≤ (pushBack s.cap s.buf i).length + s.posted.countP (s.endW i .ok).puts
          rw [puts_endW]
          simp only [if_true] at this
          unfold pushBack
          split
          · omega
          · rename_i h0
            split
            · rename_i h1
              simp only [List.length_append, List.length_tail, List.length_cons, List.length_nil]; omega
            · simp only [List.length_append, List.length_cons, List.length_nil]; omega

/-- `x` is not on its way, or has its value. -/
def St.Settled (s : St) (x : Tok) : Prop := x ∈ s.posted →
  match x with
  | .r i => (s.R i).direct ≠ none
  | .w i => (s.W i).direct = true

theorem Wk.int {s : St} {c : Option Tok} (v : Wk s c) (x : Tok) (hx : s.Settled x)
    (hc : c = some x → match x with | .r i => (s.R i).direct ≠ none | .w i => (s.W i).direct = true) :
    Wk (s.int x) c ∧ ∀ y, s.Settled y → (s.int x).Settled y := by
  cases x with
  | r i =>
    have hd : (s.R i).direct = none → Tok.r i ∉ s.posted ∧ c ≠ some (.r i) :=
      fun h => ⟨fun hm => hx hm h, fun hm => hc hm h⟩
    show Wk (s.intR i) c ∧ _
    have e : ∀ y, s.Settled y → (s.intR i).Settled y := by
      intro y hy
      rw [intR_eq]
      split
      · exact hy
      · split
        · cases y <;> simp only [St.Settled, St.endR, upd_apply] at hy ⊢ <;> grind
        · cases y <;> simp only [St.Settled, upd_apply] at hy ⊢ <;> grind
    refine ⟨?_, e⟩
    rw [intR_eq]
    split
    · exact v
    · rename_i hn
      have hdn : (s.R i).direct = none := by
        cases hd : (s.R i).direct with
        | none => rfl
        | some d => exact absurd (Or.inr (Or.inr (by rw [hd]; rfl))) hn
      have := hd hdn
      split
      · refine v.frame rfl rfl rfl (fun h => h) (fun h => h) fun y hy => ?_
        cases y with
        | w j => exact ⟨rfl, rfl⟩
        | r j =>
          have hj : j ≠ i := by rintro rfl; rcases hy with hy | hy; exact this.1 hy; exact this.2 hy
          simp [St.takes, St.puts, St.endR, upd_apply, hj]
      · refine v.frame rfl rfl rfl (fun h => h) (fun h => h) fun y hy => ?_
        cases y with
        | w j => exact ⟨rfl, rfl⟩
        | r j =>
          have hj : j ≠ i := by rintro rfl; rcases hy with hy | hy; exact this.1 hy; exact this.2 hy
          simp [St.takes, St.puts, upd_apply, hj]
  | w i =>
    have hd : (s.W i).direct = false → Tok.w i ∉ s.posted ∧ c ≠ some (.w i) :=
      fun h => ⟨fun hm => by have := hx hm; simp only at this; rw [h] at this; exact absurd this (by simp),
        fun hm => by have := hc hm; simp only at this; rw [h] at this; exact absurd this (by simp)⟩
    show Wk (s.intW i) c ∧ _
    have e : ∀ y, s.Settled y → (s.intW i).Settled y := by
      intro y hy
      rw [intW_eq]
      split
      · exact hy
      · split
        · cases y <;> simp only [St.Settled, St.endW, upd_apply] at hy ⊢ <;> grind
        · cases y <;> simp only [St.Settled, upd_apply] at hy ⊢ <;> grind
    refine ⟨?_, e⟩
    rw [intW_eq]
    split
    · exact v
    · rename_i hn
      have hdn : (s.W i).direct = false := by
        cases hd : (s.W i).direct with
        | false => rfl
        | true => exact absurd (Or.inr (Or.inr hd)) hn
      have := hd hdn
      split
      · refine v.frame rfl rfl rfl (fun h => h) (fun h => h) fun y hy => ?_
        cases y with
        | r j => exact ⟨rfl, rfl⟩
        | w j =>
          have hj : j ≠ i := by rintro rfl; rcases hy with hy | hy; exact this.1 hy; exact this.2 hy
          simp [St.takes, St.puts, St.endW, upd_apply, hj]
      · refine v.frame rfl rfl rfl (fun h => h) (fun h => h) fun y hy => ?_
        cases y with
        | r j => exact ⟨rfl, rfl⟩
        | w j =>
          have hj : j ≠ i := by rintro rfl; rcases hy with hy | hy; exact this.1 hy; exact this.2 hy
          simp [St.takes, St.puts, upd_apply, hj]

theorem int_posted (s : St) (x : Tok) : (s.int x).posted = s.posted := by
  cases x with
  | r i =>
    show (s.intR i).posted = _
    rw [intR_eq]
    split
    · rfl
    · split <;> rfl
  | w i =>
    show (s.intW i).posted = _
    rw [intW_eq]
    split
    · rfl
    · split <;> rfl

/-- Whoever is in hand has its value. -/
def St.HasValue (s : St) : Tok → Prop
  | .r i => (s.R i).direct ≠ none
  | .w i => (s.W i).direct = true

theorem HasValue.int {s : St} {y : Tok} (h : s.HasValue y) (x : Tok) : (s.int x).HasValue y := by
  cases x with
  | r i =>
    show (s.intR i).HasValue y
    rw [intR_eq]
    split
    · exact h
    · split
      · cases y <;> simp only [St.HasValue, St.endR, upd_apply] at h ⊢ <;> grind
      · cases y <;> simp only [St.HasValue, upd_apply] at h ⊢ <;> grind
  | w i =>
    show (s.intW i).HasValue y
    rw [intW_eq]
    split
    · exact h
    · split
      · cases y <;> simp only [St.HasValue, St.endW, upd_apply] at h ⊢ <;> grind
      · cases y <;> simp only [St.HasValue, upd_apply] at h ⊢ <;> grind

theorem Wk.hits {c : Tok} (ts : List Tok) : ∀ {s : St}, Wk s (some c) → s.HasValue c → (∀ x ∈ ts, s.Settled x) →
    Wk (ts.foldl St.int s) (some c) := by
  induction ts with
  | nil => exact fun v _ _ => v
  | cons x ts ih =>
    intro s v hc hs
    obtain ⟨v1, h1⟩ := v.int x (hs x (by simp)) (fun e => by
      cases e
      cases c <;> exact hc)
    exact ih v1 (HasValue.int hc x) fun y hy => h1 y (hs y (by simp [hy]))

end Cobalt.Chan
