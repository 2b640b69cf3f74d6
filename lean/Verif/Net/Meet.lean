import Verif.Net.TreeProps
import Verif.Net.MeetSpec
/-! Helper: networks in which readers and writers meet. -/
namespace Cobalt.Net
open Chan (upd)

/-- What the coroutines have done. -/
def did (N : Prog) (H : Nat → List Res) (p : Nat) : List Act := done (N.act p) (H p)

theorem did_add (N : Prog) (H : Nat → List Res) (p : Nat) (x : Res) (q : Nat) :
    did N (upd H p (H p ++ [x])) q = if q = p then did N H p ++ [N.act p (H p)] else did N H q := by
  unfold did
  split
  · rename_i h; subst h; rw [upd_self, done_snoc]
  · rename_i h; rw [upd_ne _ _ h]

theorem nreads_add {N : Prog} (hN : N.proper) (H : Nat → List Res) (p : Nat) (x : Res) (c : Nat) :
    nreads c (did N (upd H p (H p ++ [x])) (N.rd c)) =
      nreads c (did N H (N.rd c)) + if N.act p (H p) = .read c then 1 else 0 := by
  rw [did_add]
  split
  · rename_i h; rw [nreads_snoc, h]
  · rename_i h
    rw [if_neg (fun ha => h (hN.read _ _ _ ha))]; rfl

/-- One if it is a write to channel `c`. -/
def isW (c : Nat) : Act → Nat
  | .write c' _ => if c' = c then 1 else 0
  | _ => 0

theorem wrote_add {N : Prog} (hN : N.proper) (H : Nat → List Res) (p : Nat) (x : Res) (c : Nat) :
    (wrote c (did N (upd H p (H p ++ [x])) (N.wr c))).length =
      (wrote c (did N H (N.wr c))).length + isW c (N.act p (H p)) := by
  rw [did_add]
  split
  · rename_i h
    rw [wrote_snoc, h, List.length_append]
    cases N.act p (H p) with
    | write c' v => by_cases hc : c' = c <;> simp [isW, hc]
    | _ => simp [isW]
  · rename_i h
    cases ha : N.act p (H p) with
    | write c' v =>
      have : ¬ c' = c := fun e => h (by rw [← e]; exact hN.write _ _ _ _ ha)
      simp [isW, this]
    | _ => rfl

theorem close_add {N : Prog} (hN : N.proper) (H : Nat → List Res) (p : Nat) (x : Res) (c : Nat) :
    Act.close c ∈ did N (upd H p (H p ++ [x])) (N.wr c) ↔
      Act.close c ∈ did N H (N.wr c) ∨ N.act p (H p) = .close c := by
  rw [did_add]
  split
  · rename_i h
    rw [h, List.mem_append, List.mem_singleton]
    exact ⟨fun h => h.imp id Eq.symm, fun h => h.imp id Eq.symm⟩
  · rename_i h
    exact ⟨.inl, fun h' => h'.resolve_right fun ha => h (hN.close _ _ _ ha)⟩

theorem did_grows (N : Prog) (H : Nat → List Res) (p : Nat) (x : Res) (q : Nat) :
    did N H q <+: did N (upd H p (H p ++ [x])) q := by
  rw [did_add]; split
  · rename_i h; subst h; exact List.prefix_append _ _
  · exact List.prefix_refl _

/-- What may have come of an operation, if `D` is what the others have done. -/
def came (N : Prog) (D : Nat → List Act) (p : Nat) (l : List Res) (x : Res) : Prop :=
  match N.act p l with
  | .read c =>
    (∃ v, x = .val v ∧ (sent c (D (N.wr c)))[nreads c (done (N.act p) l)]? = some v) ∨
    (x = .broken ∧ Act.close c ∈ D (N.wr c) ∧ (sent c (D (N.wr c))).length ≤ nreads c (done (N.act p) l))
  | .write c _ => (Act.close c ∈ done (N.act p) l → x = .broken) ∧ (Act.close c ∉ done (N.act p) l → x = .ok)
  | .close _ => x = .ok
  | .stop => False

theorem came_mono {N : Prog} {D D' : Nat → List Act} (hD : ∀ q, D q <+: D' q) {p : Nat} {l : List Res} {x : Res}
    (h : came N D p l x) : came N D' p l x := by
  unfold came at *
  cases ha : N.act p l with
  | stop => rw [ha] at h; exact h
  | close c => rw [ha] at h; exact h
  | write c v => rw [ha] at h; exact h
  | read c =>
    rw [ha] at h
    rcases h with ⟨v, h1, h2⟩ | ⟨h1, h2, h3⟩
    · exact .inl ⟨v, h1, prefix_get (sent_mono c (hD _)) h2⟩
    · exact .inr ⟨h1, (hD _).subset h2, by rw [sent_closed c (hD _) h2]; exact h3⟩

/-- The same comes of the same. -/
theorem came_agree {N : Prog} {D E W : Nat → List Act} (h1 : ∀ q, D q <+: W q) (h2 : ∀ q, E q <+: W q) {p : Nat}
    {l : List Res} {x y : Res} (hx : came N D p l x) (hy : came N E p l y) : x = y := by
  have hx := came_mono h1 hx
  have hy := came_mono h2 hy
  unfold came at hx hy
  cases ha : N.act p l with
  | stop => rw [ha] at hx; exact hx.elim
  | close c => rw [ha] at hx hy; exact hx.trans hy.symm
  | write c v =>
    rw [ha] at hx hy
    by_cases h : Act.close c ∈ done (N.act p) l
    · rw [hx.1 h, hy.1 h]
    · rw [hx.2 h, hy.2 h]
  | read c =>
    rw [ha] at hx hy
    rcases hx with ⟨v, rfl, a⟩ | ⟨rfl, a, b⟩ <;> rcases hy with ⟨v', rfl, a'⟩ | ⟨rfl, a', b'⟩
    · rw [a] at a'; cases a'; rfl
    · rw [List.getElem?_eq_none b'] at a; cases a
    · rw [List.getElem?_eq_none b] at a'; cases a'
    · rfl

theorem NI.came {N : Prog} (hN : N.proper) {s : St} (i : NI N s) {p : Nat} {l : List Res} {x : Res}
    (hl : l ++ [x] <+: s.hist p) : came N (started N s) p l x := by
  have g := i.good p l x hl
  unfold okAt at g
  unfold Net.came
  cases ha : N.act p l with
  | read c => exact i.readRes hN hl ha
  | _ => rw [ha] at g; exact g

/-- The invariant. -/
structure MI (N : Prog) (H : Nat → List Res) : Prop where
  opn : ∀ c, Act.close c ∉ did N H (N.wr c) → nreads c (did N H (N.rd c)) = (wrote c (did N H (N.wr c))).length
  cls : ∀ c, Act.close c ∈ did N H (N.wr c) → (sent c (did N H (N.wr c))).length ≤ nreads c (did N H (N.rd c))
  res : ∀ p l x, l ++ [x] <+: H p → came N (did N H) p l x
  fin : ∃ b, ∀ p, b ≤ p → H p = []

theorem sent_open {c : Nat} {as : List Act} (h : Act.close c ∉ as) : (sent c as).length = (wrote c as).length :=
  (sent_shut c as).resolve_right h

theorem MI.res_add {N : Prog} {H : Nat → List Res} (m : MI N H) {p : Nat} {x : Res} {D : Nat → List Act}
    (hD : ∀ q, did N H q <+: D q) (hx : came N D p (H p) x) (q : Nat) (l : List Res) (y : Res)
    (hl : l ++ [y] <+: upd H p (H p ++ [x]) q) : came N D q l y := by
  by_cases hq : q = p
  · subst hq
    rw [upd_self] at hl
    rcases List.prefix_concat_iff.1 hl with h | h
    · have := List.append_inj' h rfl
      obtain ⟨h1, h2⟩ := this
      cases h2
      rw [h1]; exact hx
    · exact came_mono hD (m.res _ _ _ h)
  · rw [upd_ne _ _ hq] at hl
    exact came_mono hD (m.res _ _ _ hl)

theorem fin_add {H : Nat → List Res} (h : ∃ b, ∀ p, b ≤ p → H p = []) (p : Nat) (l : List Res) :
    ∃ b, ∀ q, b ≤ q → upd H p l q = [] := by
  obtain ⟨b, h⟩ := h
  refine ⟨b + p + 1, fun q hq => ?_⟩
  rw [upd_ne _ _ (by omega)]
  exact h q (by omega)

theorem Meets.mi {N : Prog} (hN : N.proper) {H : Nat → List Res} (h : Meets N H) : MI N H := by
  induction h with
  | start =>
    refine ⟨fun c _ => rfl, fun c h => ?_, fun p l x h => ?_, 0, fun _ _ => rfl⟩
    · simp [did, done] at h
    · have := h.length_le; simp at this
  | @close H p c h hc m =>
    refine ⟨fun c' hno => ?_, fun c' hyes => ?_, m.res_add (did_grows N H p _) ?_, fin_add m.fin _ _⟩
    · rw [close_add hN] at hno
      rw [nreads_add hN, wrote_add hN, hc]
      have := m.opn c' fun h => hno (.inl h)
      simpa [isW] using this
    · rw [nreads_add hN, hc]
      simp only [reduceCtorEq, if_false, Nat.add_zero]
      by_cases hb : Act.close c' ∈ did N H (N.wr c')
      · rw [sent_closed c' (did_grows N H p _ _) hb]
        exact m.cls c' hb
      · have h1 := (sent_wrote c' (did N (upd H p (H p ++ [.ok])) (N.wr c'))).length_le
        rw [wrote_add hN, hc] at h1
        rw [m.opn c' hb]; exact h1
    · unfold came; rw [hc]
  | @ended H p c h hr hs m =>
    refine ⟨fun c' hno => ?_, fun c' hyes => ?_, m.res_add (did_grows N H p _) ?_, fin_add m.fin _ _⟩
    · rw [close_add hN] at hno
      rw [nreads_add hN, wrote_add hN, hr]
      have hc : ¬ c = c' := by
        intro e; subst e; exact hno (.inl hs)
      have := m.opn c' fun h => hno (.inl h)
      simpa [isW, hc] using this
    · have hb := ((close_add hN ..).1 hyes).resolve_right (by rw [hr]; simp)
      rw [nreads_add hN, sent_closed c' (did_grows N H p _ _) hb]
      have := m.cls c' hb
      omega
    · have hrd := hN.read _ _ _ hr
      unfold came; rw [hr]
      refine .inr ⟨rfl, (did_grows N H p _ _).subset hs, ?_⟩
      rw [sent_closed c (did_grows N H p _ _) hs]
      have := m.cls c hs
      rw [hrd] at this
      exact this
  | @shut H p c v h hw hs m =>
    have hwr := hN.write _ _ _ _ hw
    refine ⟨fun c' hno => ?_, fun c' hyes => ?_, m.res_add (did_grows N H p _) ?_, fin_add m.fin _ _⟩
    · rw [close_add hN] at hno
      rw [nreads_add hN, wrote_add hN, hw]
      have hc : ¬ c = c' := by
        intro e; subst e; rw [hwr] at hno; exact hno (.inl hs)
      have := m.opn c' fun h => hno (.inl h)
      simpa [isW, hc] using this
    · have hb := ((close_add hN ..).1 hyes).resolve_right (by rw [hw]; simp)
      rw [nreads_add hN, sent_closed c' (did_grows N H p _ _) hb]
      have := m.cls c' hb
      omega
    · unfold came; rw [hw]
      exact ⟨fun _ => rfl, fun h => absurd hs h⟩
  | @meet H p q c v h hr hw ho m =>
    have hrd := hN.read _ _ _ hr
    have hwr := hN.write _ _ _ _ hw
    have hqp : q ≠ p := by
      intro e; subst e; rw [hr] at hw; cases hw
    have hq : upd H p (H p ++ [Res.val v]) q = H q := upd_ne _ _ hqp
    have ho' : Act.close c ∉ did N H (N.wr c) := by rw [hwr]; exact ho
    have e : upd (upd H p (H p ++ [Res.val v])) q (H q ++ [.ok]) =
        upd (upd H p (H p ++ [Res.val v])) q (upd H p (H p ++ [Res.val v]) q ++ [.ok]) := by rw [hq]
    rw [e]
    have g1 := did_grows N H p (.val v)
    have g2 := did_grows N (upd H p (H p ++ [.val v])) q .ok
    have g : ∀ r, did N H r <+: did N (upd (upd H p (H p ++ [Res.val v])) q (upd H p (H p ++ [Res.val v]) q ++ [.ok])) r :=
      fun r => (g1 r).trans (g2 r)
    have n2 : ∀ c', nreads c' (did N (upd (upd H p (H p ++ [Res.val v])) q (upd H p (H p ++ [Res.val v]) q ++ [.ok])) (N.rd c')) =
        nreads c' (did N H (N.rd c')) + if c = c' then 1 else 0 := by
      intro c'
      rw [nreads_add hN, nreads_add hN, hq, hw, hr]; simp
    have w2 : ∀ c', (wrote c' (did N (upd (upd H p (H p ++ [Res.val v])) q (upd H p (H p ++ [Res.val v]) q ++ [.ok])) (N.wr c'))).length =
        (wrote c' (did N H (N.wr c'))).length + if c = c' then 1 else 0 := by
      intro c'
      rw [wrote_add hN, wrote_add hN, hq, hw, hr]; simp [isW]
    have c2 : ∀ c', Act.close c' ∈ did N (upd (upd H p (H p ++ [Res.val v])) q (upd H p (H p ++ [Res.val v]) q ++ [.ok])) (N.wr c') ↔
        Act.close c' ∈ did N H (N.wr c') := by
      intro c'
      rw [close_add hN, close_add hN, hq, hw, hr]; simp
    have cv : came N (did N (upd (upd H p (H p ++ [Res.val v])) q (upd H p (H p ++ [Res.val v]) q ++ [.ok]))) p (H p) (.val v) := by
      unfold came; rw [hr]
      refine .inl ⟨v, rfl, ?_⟩
      have hc := m.opn c ho'
      rw [hrd] at hc
      have hs := sent_open ho'
      rw [hwr] at hs hc
      rw [hwr, did_add, if_pos rfl, hq, hw, sent_snoc]
      have e2 : did N (upd H p (H p ++ [Res.val v])) q = did N H q := by rw [did_add, if_neg hqp]
      rw [e2]
      unfold did at hc hs ⊢
      rw [hc, ← hs]
      simp [ho]
    have co : came N (did N (upd (upd H p (H p ++ [Res.val v])) q (upd H p (H p ++ [Res.val v]) q ++ [.ok]))) q (H q) .ok := by
      unfold came; rw [hw]
      exact ⟨fun h => absurd h ho, fun _ => rfl⟩
    refine ⟨fun c' hno => ?_, fun c' hyes => ?_, fun r l x hl => ?_, fin_add (fin_add m.fin _ _) _ _⟩
    · rw [c2] at hno
      rw [n2, w2, m.opn c' hno]
    · rw [c2] at hyes
      rw [n2, sent_closed c' (g _) hyes]
      have := m.cls c' hyes
      omega
    · by_cases hrq : r = q
      · subst hrq
        rw [upd_self, hq] at hl
        rcases List.prefix_concat_iff.1 hl with h | h
        · obtain ⟨h1, h2⟩ := List.append_inj' h rfl
          cases h2
          rw [h1]; exact co
        · exact came_mono g (m.res _ _ _ h)
      · rw [upd_ne _ _ hrq] at hl
        exact m.res_add g cv r l x hl

end Cobalt.Net
