import Verif.VChan.Inv2
import Verif.Chan.WakeLemmas
/-!
# Lemmas for C98: enough posted operations for the tokens and the room there are
-/
namespace Cobalt.VChan

open Chan (Status Tok upd countP_eq countP_eraseIdx)

/-- A posted resumption that is going to take a token away. -/
def St.takes (s : St) : Tok → Bool
  | .r i => !(s.R i).direct && !(s.R i).cancelled
  | .w _ => false

/-- A posted resumption that is going to put a token in. -/
def St.puts (s : St) : Tok → Bool
  | .w i => !(s.W i).direct && !(s.W i).cancelled
  | .r _ => false

/-- `c` is about to be resumed. -/
structure Wk (s : St) (c : Option Tok) : Prop where
  r : s.rq ≠ [] → s.n.toNat ≤ s.posted.countP s.takes + (if c.any s.takes then 1 else 0)
  w : s.wq ≠ [] → s.limit.toNat ≤ s.n.toNat + s.posted.countP s.puts + (if c.any s.puts then 1 else 0)

theorem Wk.init (l : BitVec 64) : Wk (St.init l) none := ⟨by simp [St.init], by simp [St.init]⟩

theorem Wk.unpost {s : St} {k : Nat} {t : Tok} (v : Wk s none) (hk : s.posted[k]? = some t) :
    Wk { s with posted := s.posted.eraseIdx k } (some t) := by
  constructor
  · intro h
    have := v.r h
    have e := countP_eraseIdx s.takes s.posted k t hk
    show s.n.toNat ≤ (s.posted.eraseIdx k).countP s.takes + (if s.takes t then 1 else 0)
    simp at this
    omega
  · intro h
    have := v.w h
    have e := countP_eraseIdx s.puts s.posted k t hk
    show s.limit.toNat ≤ s.n.toNat + (s.posted.eraseIdx k).countP s.puts + (if s.puts t then 1 else 0)
    simp at this
    omega

theorem Wk.weaken {s : St} (v : Wk s none) (t : Tok) : Wk s (some t) := by
  constructor
  · intro h; have := v.r h; simp at this; omega
  · intro h; have := v.w h; simp at this; omega

/-- Steps that leave the buffer and what the posted operations are going to do as they were. -/
theorem Wk.frame {s s' : St} {c : Option Tok} (v : Wk s c) (hcap : s'.limit = s.limit) (hb : s'.n.toNat = s.n.toNat)
    (hp : s'.posted = s.posted) (hr : s'.rq ≠ [] → s.rq ≠ []) (hw : s'.wq ≠ [] → s.wq ≠ [])
    (ht : ∀ x, (x ∈ s.posted ∨ c = some x) → s'.takes x = s.takes x ∧ s'.puts x = s.puts x) : Wk s' c := by
  have h1 : s.posted.countP s'.takes = s.posted.countP s.takes := countP_eq fun x hx => (ht x (Or.inl hx)).1
  have h2 : s.posted.countP s'.puts = s.posted.countP s.puts := countP_eq fun x hx => (ht x (Or.inl hx)).2
  have h3 : c.any s'.takes = c.any s.takes := by
    cases c with
    | none => rfl
    | some x => exact (ht x (Or.inr rfl)).1
  have h4 : c.any s'.puts = c.any s.puts := by
    cases c with
    | none => rfl
    | some x => exact (ht x (Or.inr rfl)).2
  constructor
  · intro h; rw [hb, hp, h1, h3]; exact v.r (hr h)
  · intro h; rw [hcap, hb, hp, h2, h4]; exact v.w (hw h)

theorem Wk.wakeWriter {s : St} (h : WF s none)
    (hr : s.rq ≠ [] → s.n.toNat ≤ s.posted.countP s.takes)
    (hw : s.wq ≠ [] → s.limit.toNat ≤ s.n.toNat + s.posted.countP s.puts + 1) :
    s.wakeWriter.ub = true ∨ Wk s.wakeWriter none := by
  unfold St.wakeWriter
  split
  · rename_i hq
    exact Or.inr ⟨fun h => by simpa using hr h, fun h => absurd hq h⟩
  · rename_i w rest hq
    have he : s.rq = [] := by rcases h.excl with h | h <;> simp_all
    have hlk := h.wlink w (by simp [hq])
    dsimp only
    split
    · split
      · rename_i hwt
        have hnp : Tok.w w ∉ s.posted := fun hm => by
          have := (h.wpost w hm).2.1
          rw [hwt] at this; exact absurd this (by simp)
        right
        refine ⟨fun h => absurd he h, fun hne => ?_⟩
        have h0 := hw (by rw [hq]; simp)
        have hcan : (s.W w).cancelled = false := by
          rcases hlk.2.2 with h1 | h1
          · exact h1.2.2
          · have := h1.2.1
            rw [hwt] at this; exact absurd this (by simp)
        have e1 : s.posted.countP (St.puts { s with
            wq := rest, W := upd s.W w { s.W w with waiting := false }, posted := s.posted ++ [.w w] }) =
            s.posted.countP s.puts := countP_eq fun x hx => by
          cases x with
          | r i => rfl
          | w i =>
            have : i ≠ w := fun e => hnp (e ▸ hx)
            simp [St.puts, upd_apply, this]
        have e2 : St.puts { s with
            wq := rest, W := upd s.W w { s.W w with waiting := false }, posted := s.posted ++ [.w w] } (.w w) = true := by
          simp [St.puts, upd_apply, hlk.1, hcan]
        show s.limit.toNat ≤ s.n.toNat + (s.posted ++ [Tok.w w]).countP (St.puts { s with
            wq := rest, W := upd s.W w { s.W w with waiting := false }, posted := s.posted ++ [.w w] }) + 0
        rw [List.countP_append, e1, List.countP_cons, List.countP_nil, e2]
        simp only [if_true]
        omega
      · exact Or.inl rfl
    · rename_i hn
      right
      simp only [St.writeReady, Bool.or_eq_true, not_or, Bool.not_eq_true] at hn
      have hn1 : s.limit.toNat ≤ s.n.toNat := by
        have := hn.1
        rw [BitVec.ult_eq_decide] at this
        simpa using this
      refine ⟨fun h => absurd he h, fun _ => ?_⟩
      show s.limit.toNat ≤ s.n.toNat + _ + _
      omega

theorem Wk.wakeReader {s : St} (h : WF s none)
    (hr : s.rq ≠ [] → s.n.toNat ≤ s.posted.countP s.takes + 1)
    (hw : s.wq ≠ [] → s.limit.toNat ≤ s.n.toNat + s.posted.countP s.puts) :
    s.wakeReader.ub = true ∨ Wk s.wakeReader none := by
  unfold St.wakeReader
  split
  · rename_i hq
    exact Or.inr ⟨fun h => absurd hq h, fun h => by simpa using hw h⟩
  · rename_i w rest hq
    have he : s.wq = [] := by rcases h.excl with h | h <;> simp_all
    have hlk := h.rlink w (by simp [hq])
    dsimp only
    split
    · split
      · rename_i hwt
        have hnp : Tok.r w ∉ s.posted := fun hm => by
          have := (h.rpost w hm).2.1
          rw [hwt] at this; exact absurd this (by simp)
        right
        refine ⟨fun hne => ?_, fun h => absurd he h⟩
        have h0 := hr (by rw [hq]; simp)
        have hcan : (s.R w).cancelled = false := by
          rcases hlk.2 with h1 | h1
          · exact h1.2.2
          · have := h1.2.1
            rw [hwt] at this; exact absurd this (by simp)
        have e1 : s.posted.countP (St.takes { s with
            rq := rest, R := upd s.R w { s.R w with waiting := false }, posted := s.posted ++ [.r w] }) =
            s.posted.countP s.takes := countP_eq fun x hx => by
          cases x with
          | w i => rfl
          | r i =>
            have : i ≠ w := fun e => hnp (e ▸ hx)
            simp [St.takes, upd_apply, this]
        have e2 : St.takes { s with
            rq := rest, R := upd s.R w { s.R w with waiting := false }, posted := s.posted ++ [.r w] } (.r w) = true := by
          simp [St.takes, upd_apply, hlk.1, hcan]
        show s.n.toNat ≤ (s.posted ++ [Tok.r w]).countP (St.takes { s with
            rq := rest, R := upd s.R w { s.R w with waiting := false }, posted := s.posted ++ [.r w] }) + 0
        rw [List.countP_append, e1, List.countP_cons, List.countP_nil, e2]
        simp only [if_true]
        omega
      · exact Or.inl rfl
    · rename_i hn
      right
      simp only [St.readReady, Bool.or_eq_true, not_or, Bool.not_eq_true] at hn
      have hn1 : s.n.toNat = 0 := by
        have := hn.1
        rw [BitVec.ult_eq_decide] at this
        simpa using this
      refine ⟨fun _ => ?_, fun h => absurd he h⟩
      show s.n.toNat ≤ _ + _
      rw [hn1]; simp

theorem takes_endR (s : St) (i : Nat) (res : Res) : (s.endR i res).takes = s.takes := by
  funext x
  cases x with
  | w j => rfl
  | r j => simp only [St.takes, St.endR, upd_apply]; split <;> simp_all

theorem puts_endW (s : St) (i : Nat) (res : Res) : (s.endW i res).puts = s.puts := by
  funext x
  cases x with
  | r j => rfl
  | w j => simp only [St.puts, St.endW, upd_apply]; split <;> simp_all

theorem sub_one_toNat {x : BitVec 64} (h : 1 ≤ x.toNat) : (x - 1#64).toNat = x.toNat - 1 := by
  have := x.isLt
  simp only [BitVec.toNat_sub, BitVec.toNat_ofNat]
  omega

theorem add_one_toNat {x : BitVec 64} (h : x.toNat + 1 < 2 ^ 64) : (x + 1#64).toNat = x.toNat + 1 := by
  simp only [BitVec.toNat_add, BitVec.toNat_ofNat]
  omega

theorem wakeWriter_n (s : St) : s.wakeWriter.n = s.n := by
  unfold St.wakeWriter
  split
  · rfl
  · dsimp only; split
    · split <;> rfl
    · rfl

theorem wakeReader_n (s : St) : s.wakeReader.n = s.n := by
  unfold St.wakeReader
  split
  · rfl
  · dsimp only; split
    · split <;> rfl
    · rfl

theorem Wk.resumeR {s : St} {i : Nat} (h : WF s (some (.r i))) (v : Wk s (some (.r i)))
    (hz : (s.resumeR i).n.toNat ≤ s.n.toNat + 1) : (s.resumeR i).ub = true ∨ Wk (s.resumeR i) none := by
  have hp : s.wq ≠ [] → s.limit.toNat ≤ s.n.toNat + s.posted.countP s.puts := fun h => by simpa [St.puts] using v.w h
  have ht : s.rq ≠ [] → s.n.toNat ≤ s.posted.countP s.takes + (if s.takes (.r i) = true then 1 else 0) := v.r
  revert hz
  unfold St.resumeR
  split
  · rename_i hc
    intro _
    have := h.closedQ hc
    exact Or.inr ⟨fun h => absurd this.1 h, fun h => absurd this.2 h⟩
  · split
    · rename_i hc
      intro _
      right
      have e : s.takes (.r i) = false := by simp [St.takes, hc]
      rw [e] at ht
      refine ⟨fun h => ?_, fun h => ?_⟩
      · rw [takes_endR]; simpa [St.endR] using ht h
      · show s.limit.toNat ≤ s.n.toNat + s.posted.countP s.puts + 0
        simpa using hp h
    · rename_i hc
      split
      · rename_i hd
        intro _
        have e : s.takes (.r i) = false := by simp [St.takes, hd]
        rw [e] at ht
        refine Wk.wakeWriter (h.endR _) ?_ ?_
        · rw [takes_endR]; simpa [St.endR] using ht
        · intro h; have := hp h; show s.limit.toNat ≤ s.n.toNat + s.posted.countP s.puts + 1; omega
      · rename_i hd
        rw [wakeWriter_n]
        intro hz
        have hz : (s.n - 1#64).toNat ≤ s.n.toNat + 1 := hz
        have e : s.takes (.r i) = true := by simp [St.takes, hd, hc]
        rw [e] at ht
        have h1 : 1 ≤ s.n.toNat := by
          rcases Nat.eq_zero_or_pos s.n.toNat with h0 | h0
          · rw [BitVec.toNat_sub, h0] at hz
            simp at hz
          · exact h0
        have h2 := sub_one_toNat h1
        refine Wk.wakeWriter ((h.endR _).setN _) ?_ ?_
        · intro h
          have := ht h
          show (s.n - 1#64).toNat ≤ s.posted.countP (s.endR i .ok).takes
          rw [takes_endR, h2]
          simp at this; omega
        · intro h
          have := hp h
          show s.limit.toNat ≤ (s.n - 1#64).toNat + s.posted.countP s.puts + 1
          omega

theorem Wk.resumeW {s : St} {i : Nat} (h : WF s (some (.w i))) (v : Wk s (some (.w i)))
    (hz : s.n.toNat ≤ (s.resumeW i).n.toNat + 1) : (s.resumeW i).ub = true ∨ Wk (s.resumeW i) none := by
  have ht : s.rq ≠ [] → s.n.toNat ≤ s.posted.countP s.takes := fun h => by simpa [St.takes] using v.r h
  have hp : s.wq ≠ [] → s.limit.toNat ≤ s.n.toNat + s.posted.countP s.puts + (if s.puts (.w i) = true then 1 else 0) := v.w
  revert hz
  unfold St.resumeW
  split
  · rename_i hc
    intro _
    have := h.closedQ (h.wclosed i hc)
    exact Or.inr ⟨fun h => absurd this.1 h, fun h => absurd this.2 h⟩
  · split
    · rename_i hc
      intro _
      right
      have e : s.puts (.w i) = false := by simp [St.puts, hc]
      rw [e] at hp
      refine ⟨fun h => ?_, fun h => ?_⟩
      · show s.n.toNat ≤ s.posted.countP s.takes + 0
        simpa using ht h
      · rw [puts_endW]; simpa [St.endW] using hp h
    · rename_i hc
      split
      · rename_i hd
        intro _
        have e : s.puts (.w i) = false := by simp [St.puts, hd]
        rw [e] at hp
        refine Wk.wakeReader (h.endW _) ?_ ?_
        · intro h; have := ht h; show s.n.toNat ≤ s.posted.countP s.takes + 1; omega
        · rw [puts_endW]; simpa [St.endW] using hp
      · rename_i hd
        rw [wakeReader_n]
        intro hz
        have hz : s.n.toNat ≤ (s.n + 1#64).toNat + 1 := hz
        have e : s.puts (.w i) = true := by simp [St.puts, hd, hc]
        rw [e] at hp
        have h1 : s.n.toNat + 1 < 2 ^ 64 := by
          have := s.n.isLt
          rcases Nat.lt_or_ge (s.n.toNat + 1) (2 ^ 64) with h0 | h0
          · exact h0
          · have h3 : s.n.toNat = 2 ^ 64 - 1 := by omega
            rw [BitVec.toNat_add, h3] at hz
            simp at hz
        have h2 := add_one_toNat h1
        refine Wk.wakeReader ((h.endW _).setN _) ?_ ?_
        · intro h
          have := ht h
          show (s.n + 1#64).toNat ≤ s.posted.countP s.takes + 1
          omega
        · intro h
          have := hp h
          show s.limit.toNat ≤ (s.n + 1#64).toNat + s.posted.countP (s.endW i .ok).puts
          rw [puts_endW]
          simp only [if_true] at this
          omega

/-- `x` is not on its way, or has its value. -/
def St.Settled (s : St) (x : Tok) : Prop := x ∈ s.posted →
  match x with
  | .r i => (s.R i).direct = true
  | .w i => (s.W i).direct = true

theorem Wk.int {s : St} {c : Option Tok} (v : Wk s c) (x : Tok) (hx : s.Settled x)
    (hc : c = some x → match x with | .r i => (s.R i).direct = true | .w i => (s.W i).direct = true) :
    Wk (s.int x) c ∧ ∀ y, s.Settled y → (s.int x).Settled y := by
  cases x with
  | r i =>
    have hd : (s.R i).direct = false → Tok.r i ∉ s.posted ∧ c ≠ some (.r i) :=
      fun h => ⟨fun hm => by have := hx hm; simp only at this; rw [h] at this; exact absurd this (by simp),
        fun hm => by have := hc hm; simp only at this; rw [h] at this; exact absurd this (by simp)⟩
    show Wk (s.intR i) c ∧ _
    have e : ∀ y, s.Settled y → (s.intR i).Settled y := by
      intro y hy
      rw [intR_eq]
      split
      · exact hy
      · split
        · cases y <;> simp only [St.Settled, St.endR, upd_apply] at hy ⊢ <;> grind
        · cases y <;> simp only [St.Settled, upd_apply] at hy ⊢ <;> grind
    refine ⟨?_, e⟩
    rw [intR_eq]
    split
    · exact v
    · rename_i hn
      have hdn : (s.R i).direct = false := by
        cases hd : (s.R i).direct with
        | false => rfl
        | true => exact absurd (Or.inr (Or.inr hd)) hn
      have := hd hdn
      split
      · refine v.frame rfl rfl rfl (fun h => h) (fun h => h) fun y hy => ?_
        cases y with
        | w j => exact ⟨rfl, rfl⟩
        | r j =>
          have hj : j ≠ i := by rintro rfl; rcases hy with hy | hy; exact this.1 hy; exact this.2 hy
          simp [St.takes, St.puts, St.endR, upd_apply, hj]
      · refine v.frame rfl rfl rfl (fun h => h) (fun h => h) fun y hy => ?_
        cases y with
        | w j => exact ⟨rfl, rfl⟩
        | r j =>
          have hj : j ≠ i := by rintro rfl; rcases hy with hy | hy; exact this.1 hy; exact this.2 hy
          simp [St.takes, St.puts, upd_apply, hj]
  | w i =>
    have hd : (s.W i).direct = false → Tok.w i ∉ s.posted ∧ c ≠ some (.w i) :=
      fun h => ⟨fun hm => by have := hx hm; simp only at this; rw [h] at this; exact absurd this (by simp),
        fun hm => by have := hc hm; simp only at this; rw [h] at this; exact absurd this (by simp)⟩
    show Wk (s.intW i) c ∧ _
    have e : ∀ y, s.Settled y → (s.intW i).Settled y := by
      intro y hy
      rw [intW_eq]
      split
      · exact hy
      · split
        · cases y <;> simp only [St.Settled, St.endW, upd_apply] at hy ⊢ <;> grind
        · cases y <;> simp only [St.Settled, upd_apply] at hy ⊢ <;> grind
    refine ⟨?_, e⟩
    rw [intW_eq]
    split
    · exact v
    · rename_i hn
      have hdn : (s.W i).direct = false := by
        cases hd : (s.W i).direct with
        | false => rfl
        | true => exact absurd (Or.inr (Or.inr hd)) hn
      have := hd hdn
      split
      · refine v.frame rfl rfl rfl (fun h => h) (fun h => h) fun y hy => ?_
        cases y with
        | r j => exact ⟨rfl, rfl⟩
        | w j =>
          have hj : j ≠ i := by rintro rfl; rcases hy with hy | hy; exact this.1 hy; exact this.2 hy
          simp [St.takes, St.puts, St.endW, upd_apply, hj]
      · refine v.frame rfl rfl rfl (fun h => h) (fun h => h) fun y hy => ?_
        cases y with
        | r j => exact ⟨rfl, rfl⟩
        | w j =>
          have hj : j ≠ i := by rintro rfl; rcases hy with hy | hy; exact this.1 hy; exact this.2 hy
          simp [St.takes, St.puts, upd_apply, hj]

theorem int_posted (s : St) (x : Tok) : (s.int x).posted = s.posted := by
  cases x with
  | r i =>
    show (s.intR i).posted = _
    rw [intR_eq]
    split
    · rfl
    · split <;> rfl
  | w i =>
    show (s.intW i).posted = _
    rw [intW_eq]
    split
    · rfl
    · split <;> rfl

/-- Whoever is in hand has its value. -/
def St.HasValue (s : St) : Tok → Prop
  | .r i => (s.R i).direct = true
  | .w i => (s.W i).direct = true

theorem HasValue.int {s : St} {y : Tok} (h : s.HasValue y) (x : Tok) : (s.int x).HasValue y := by
  cases x with
  | r i =>
    show (s.intR i).HasValue y
    rw [intR_eq]
    split
    · exact h
    · split
      · cases y <;> simp only [St.HasValue, St.endR, upd_apply] at h ⊢ <;> grind
      · cases y <;> simp only [St.HasValue, upd_apply] at h ⊢ <;> grind
  | w i =>
    show (s.intW i).HasValue y
    rw [intW_eq]
    split
    · exact h
    · split
      · cases y <;> simp only [St.HasValue, St.endW, upd_apply] at h ⊢ <;> grind
      · cases y <;> simp only [St.HasValue, upd_apply] at h ⊢ <;> grind

theorem Wk.hits {c : Tok} (ts : List Tok) : ∀ {s : St}, Wk s (some c) → s.HasValue c → (∀ x ∈ ts, s.Settled x) →
    Wk (ts.foldl St.int s) (some c) := by
  induction ts with
  | nil => exact fun v _ _ => v
  | cons x ts ih =>
    intro s v hc hs
    obtain ⟨v1, h1⟩ := v.int x (hs x (by simp)) (fun e => by
      cases e
      cases c <;> exact hc)
    exact ih v1 (HasValue.int hc x) fun y hy => h1 y (hs y (by simp [hy]))

end Cobalt.VChan
