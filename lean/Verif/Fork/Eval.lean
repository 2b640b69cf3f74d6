import Verif.Fork.Run
/-! Helper: what happens to a coroutine is determined, and how much it is. -/
namespace Cobalt.Fork
open Prom (Out upd)

/-- What can come of something, after `h`. -/
def okay (N : Prog) (a : Nat) (h : List Res) (x : Res) : Prop :=
  match N.act a h with
  | .start _ => x = .started
  | .op y => x = .val (N.op y)
  | .await k => ∃ b h' o, (starts (done (N.act a) h))[k]? = some b ∧ Hist N b h' ∧ N.act b h' = .fin o ∧ x = ofOut o
  | .fin _ => False

theorem Hist.okay {N : Prog} {a : Nat} {h : List Res} (hh : Hist N a h) {l : List Res} {x : Res} (hl : l ++ [x] <+: h) :
    Fork.okay N a l x ∧ Hist N a l := by
  have snoc : ∀ {a h y}, (∀ {l x}, l ++ [x] <+: h → Fork.okay N a l x ∧ Hist N a l) → Fork.okay N a h y → Hist N a h →
      ∀ {l x}, l ++ [x] <+: h ++ [y] → Fork.okay N a l x ∧ Hist N a l := by
    intro a h y ih hy hh l x hl
    rw [List.prefix_concat_iff] at hl
    rcases hl with hl | hl
    · obtain ⟨rfl, e⟩ := List.append_inj' hl rfl
      cases e; exact ⟨hy, hh⟩
    · exact ih hl
  induction hh generalizing l x with
  | nil a =>
    have := hl.length_le
    simp at this
  | start b h1 ha ih => exact snoc (fun h => ih h) (by unfold Fork.okay; rw [ha]) h1 hl
  | op y h1 ha ih => exact snoc (fun h => ih h) (by unfold Fork.okay; rw [ha]) h1 hl
  | await k h1 ha hb h2 hf ih _ =>
    exact snoc (fun h => ih h) (by unfold Fork.okay; rw [ha]; exact ⟨_, _, _, hb, h2, hf, rfl⟩) h1 hl

/-- Nothing comes after the end. -/
theorem Hist.last {N : Prog} {a : Nat} {h h' : List Res} {o : Out} (hf : N.act a h = .fin o) (hh : Hist N a h')
    (hp : h <+: h') : h = h' := by
  obtain ⟨u, rfl⟩ := hp
  cases u with
  | nil => rw [List.append_nil]
  | cons x u =>
    have := (hh.okay (l := h) (x := x) ⟨u, by simp⟩).1
    unfold Fork.okay at this
    rw [hf] at this
    exact this.elim

/-- Of two histories of a coroutine one continues the other. -/
theorem Hist.det {N : Prog} {a : Nat} {h h' : List Res} (hh : Hist N a h) (hh' : Hist N a h') : h <+: h' ∨ h' <+: h := by
  have snoc : ∀ {a h x h'}, Hist N a h' → (h <+: h' ∨ h' <+: h) → (∀ y, Fork.okay N a h y → y = x) →
      h ++ [x] <+: h' ∨ h' <+: h ++ [x] := by
    intro a h x h' hh' hc hx
    rcases hc with ⟨u, rfl⟩ | hc
    · cases u with
      | nil => right; rw [List.append_nil]; exact List.prefix_append _ _
      | cons y u =>
        left
        have := hx y (hh'.okay (l := h) (x := y) ⟨u, by simp⟩).1
        subst this
        exact ⟨u, by simp⟩
    · exact .inr (hc.trans (List.prefix_append _ _))
  induction hh generalizing h' with
  | nil a => exact .inl (List.nil_prefix)
  | start b h1 ha ih => exact snoc hh' (ih hh') (fun y hy => by unfold Fork.okay at hy; rw [ha] at hy; exact hy)
  | op x h1 ha ih => exact snoc hh' (ih hh') (fun y hy => by unfold Fork.okay at hy; rw [ha] at hy; exact hy)
  | @await a h b hb' o k h1 ha hb h2 hf ih ih2 =>
    refine snoc hh' (ih hh') (fun y hy => ?_)
    unfold Fork.okay at hy
    rw [ha] at hy
    obtain ⟨b', h'', o', e1, e2, e3, rfl⟩ := hy
    rw [hb] at e1
    cases e1
    have : h'' = hb' := by
      rcases ih2 e2 with h | h
      · exact (Hist.last hf e2 h).symm
      · exact Hist.last e3 h2 h
    subst this
    rw [hf] at e3
    cases e3; rfl

theorem Ends.det {N : Prog} {a : Nat} {o o' : Out} (h : Ends N a o) (h' : Ends N a o') : o = o' := by
  obtain ⟨l, h1, h2⟩ := h
  obtain ⟨l', h1', h2'⟩ := h'
  have : l = l' := by
    rcases h1.det h1' with h | h
    · exact Hist.last h2 h1' h
    · exact (Hist.last h2' h1 h).symm
  subst this
  rw [h2] at h2'
  cases h2'; rfl

/-! ## How much there is to do -/

def Term (N : Prog) (a : Nat) : Prop := ∃ H, Hist N a H ∧ ∃ o, N.act a H = .fin o

open Classical in
/-- All that happens to a coroutine with argument `a`. -/
noncomputable def whole (N : Prog) (a : Nat) : List Res := if h : Term N a then choose h else []

theorem whole_spec {N : Prog} {a : Nat} (h : Term N a) : Hist N a (whole N a) ∧ ∃ o, N.act a (whole N a) = .fin o := by
  unfold whole
  rw [dif_pos h]
  exact Classical.choose_spec h

theorem whole_eq {N : Prog} {a : Nat} {h : List Res} {o : Out} (hh : Hist N a h) (hf : N.act a h = .fin o) :
    whole N a = h := by
  obtain ⟨h1, o', h2⟩ := whole_spec (N := N) (a := a) ⟨h, hh, o, hf⟩
  rcases h1.det hh with hp | hp
  · exact Hist.last h2 hh hp
  · exact (Hist.last hf h1 hp).symm

theorem whole_max {N : Prog} {a : Nat} (ht : Term N a) {h : List Res} (hh : Hist N a h) : h <+: whole N a := by
  obtain ⟨h1, o, h2⟩ := whole_spec ht
  rcases h1.det hh with hp | hp
  · rw [Hist.last h2 hh hp]; exact List.prefix_refl _
  · exact hp

theorem done_prefix (f : List Res → Act) {h h' : List Res} (hp : h <+: h') : done f h <+: done f h' := by
  obtain ⟨u, rfl⟩ := hp
  induction u using snoc_ind with
  | h0 => rw [List.append_nil]; exact List.prefix_refl _
  | h1 u x ih => rw [← List.append_assoc, done_snoc]; exact ih.trans (List.prefix_append _ _)

theorem starts_prefix {as bs : List Act} (hp : as <+: bs) : starts as <+: starts bs := by
  obtain ⟨u, rfl⟩ := hp
  rw [starts_append]; exact List.prefix_append _ _

/-- An await in the past. -/
theorem await_past {N : Prog} {a : Nat} {h : List Res} {k : Nat} (hk : Act.await k ∈ done (N.act a) h) :
    ∃ l x, l ++ [x] <+: h ∧ N.act a l = .await k := by
  unfold done at hk
  obtain ⟨i, hi, e⟩ := List.mem_map.1 hk
  have hi := List.mem_range.1 hi
  refine ⟨h.take i, h[i], ?_, e⟩
  rw [← List.take_succ_eq_append_getElem hi]
  exact List.take_prefix _ _

/-- All that was started by a coroutine that ends, ends. -/
theorem kids_term {N : Prog} (hN : N.proper) {a b : Nat} (ht : Term N a)
    (hb : b ∈ starts (done (N.act a) (whole N a))) : Term N b := by
  obtain ⟨h1, o, h2⟩ := whole_spec ht
  obtain ⟨k, hk⟩ := List.getElem?_of_mem hb
  have hlt := (List.getElem?_eq_some_iff.1 hk).1
  obtain ⟨l, x, hl, ha⟩ := await_past (hN.all _ _ _ h1 h2 k hlt)
  have hok := (h1.okay hl).1
  unfold okay at hok
  rw [ha] at hok
  obtain ⟨b', h', o', e1, e2, e3, -⟩ := hok
  have hp := starts_prefix (done_prefix (N.act a) ((List.prefix_append l [x]).trans hl))
  obtain ⟨u, hu⟩ := hp
  rw [← hu, List.getElem?_append_left (List.getElem?_eq_some_iff.1 e1).1, e1] at hk
  cases hk
  exact ⟨h', e2, o', e3⟩

def kid (N : Prog) (b a : Nat) : Prop := Term N a ∧ b ∈ starts (done (N.act a) (whole N a))

theorem acc_awaited {N : Prog} (hN : N.proper) {a : Nat} {h : List Res} (hh : Hist N a h) :
    ∀ k b, Act.await k ∈ done (N.act a) h → (starts (done (N.act a) h))[k]? = some b → Acc (kid N) b := by
  induction hh with
  | nil a => intro k b hk; simp [done] at hk
  | @start a h b' h1 ha ih =>
    intro k b hk hb
    rw [done_snoc, ha] at hk hb
    have hk' : Act.await k ∈ done (N.act a) h := by simpa using hk
    rw [starts_append, List.getElem?_append_left (h1.await_lt hk')] at hb
    exact ih k b hk' hb
  | @op a h x h1 ha ih =>
    intro k b hk hb
    rw [done_snoc, ha] at hk hb
    have hk' : Act.await k ∈ done (N.act a) h := by simpa using hk
    rw [starts_append, List.getElem?_append_left (h1.await_lt hk')] at hb
    exact ih k b hk' hb
  | @await a h b' h' o k' h1 ha hb' h2 hf ih ih2 =>
    intro k b hk hb
    rw [done_snoc, ha] at hk hb
    by_cases hkk : k = k'
    · subst hkk
      rw [starts_append, List.getElem?_append_left (List.getElem?_eq_some_iff.1 hb').1, hb'] at hb
      cases hb
      constructor
      intro d hd
      obtain ⟨-, hd⟩ := hd
      rw [whole_eq h2 hf] at hd
      obtain ⟨j, hj⟩ := List.getElem?_of_mem hd
      exact ih2 j d (hN.all _ _ _ h2 hf j (List.getElem?_eq_some_iff.1 hj).1) hj
    · have hk' : Act.await k ∈ done (N.act a) h := by simpa [hkk] using hk
      rw [starts_append, List.getElem?_append_left (h1.await_lt hk')] at hb
      exact ih k b hk' hb

theorem kid_wf {N : Prog} (hN : N.proper) : WellFounded (kid N) := by
  constructor
  intro a
  constructor
  intro b hb
  obtain ⟨ht, hb⟩ := hb
  obtain ⟨h1, o, h2⟩ := whole_spec ht
  obtain ⟨k, hk⟩ := List.getElem?_of_mem hb
  exact acc_awaited hN h1 k b (hN.all _ _ _ h1 h2 k (List.getElem?_eq_some_iff.1 hk).1) hk

/-- The work of a coroutine and of all it starts. -/
theorem cost_exists {N : Prog} (hN : N.proper) : ∃ κ : Nat → Nat, ∀ a, Term N a →
    κ a = 2 * (whole N a).length + 2 + ((starts (done (N.act a) (whole N a))).map κ).sum := by
  classical
  let F : ∀ a, (∀ b, kid N b a → Nat) → Nat := fun a rec' =>
    2 * (whole N a).length + 2 +
      ((starts (done (N.act a) (whole N a))).map fun b => if h : kid N b a then rec' b h else 0).sum
  refine ⟨(kid_wf hN).fix F, fun a ht => ?_⟩
  rw [WellFounded.fix_eq]
  show 2 * _ + 2 + _ = _
  congr 2
  apply List.map_congr_left
  intro b hb
  rw [dif_pos ⟨ht, hb⟩]

end Cobalt.Fork
