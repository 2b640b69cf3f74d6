import Verif.Own.Inv
import Verif.Chan.Persist
/-! Helper: what is taken is what was given. -/
namespace Cobalt.Own
open Chan (Obs upd WRes)

/-- Operation `i` of channel `c` is waited for. -/
def St.pendAt (s : St) (c i : Nat) : Prop := Obs.startW i ∈ (s.ch c).log ∧ i ∉ Chan.endedW (s.ch c).log

/-- Or it begins now. -/
def St.pn (s : St) (c : Nat) (n : Option Nat) (c' i : Nat) : Prop := s.pendAt c' i ∨ c' = c ∧ n = some i

/-- Everything is taken as it was given: what is pending is there still, and each of them has its own variable. -/
structure PI (s : St) (c : Nat) (n : Option Nat) : Prop where
  eq : ∀ c' i v, s.got c' i = some v → v = s.given c' i
  val : ∀ c' i, s.pn c n c' i → s.got c' i = none → s.mem (s.src c' i) = s.given c' i
  uniq : ∀ c' i c'' j, s.pn c n c' i → s.pn c n c'' j → s.src c' i = s.src c'' j → c' = c'' ∧ i = j

theorem mem_endedW {l : List Obs} {i : Nat} : i ∈ Chan.endedW l ↔ ∃ r, Obs.doneW i r ∈ l := by
  simp only [Chan.endedW, List.mem_filterMap]
  constructor
  · intro ⟨o, h1, h2⟩
    cases o with
    | doneW j r => simp only [Option.some.injEq] at h2; subst h2; exact ⟨r, h1⟩
    | startR j => cases h2
    | doneR j r => cases h2
    | startW j => cases h2
  · intro ⟨r, h⟩; exact ⟨_, h, rfl⟩

theorem took_start {t : Chan.St} (c : Ci t) {i : Nat} (h : took t i = true) : Obs.startW i ∈ t.log := by
  simp only [took, Bool.or_eq_true, decide_eq_true_eq] at h
  exact h.elim (c.tk.dirSt i) (c.tk.esW i _)

theorem took_ok {t : Chan.St} (c : Ci t) {i : Nat} {r : WRes} (h : took t i = true) (hr : Obs.doneW i r ∈ t.log) :
    r = .ok := by
  simp only [took, Bool.or_eq_true, decide_eq_true_eq] at h
  exact h.elim (c.tk.dirOkW i r hr) fun h => Chan.one_resultW c.tk.ndEW hr h

variable {s : St} {c : Nat} {n : Option Nat} {t : Chan.St}

theorem Go.ended (g : Go n (s.ch c) t) {i : Nat} (h : i ∈ Chan.endedW (s.ch c).log) : i ∈ Chan.endedW t.log := by
  obtain ⟨m, hm⟩ := g.log
  rw [mem_endedW] at h ⊢
  obtain ⟨r, hr⟩ := h
  exact ⟨r, by rw [hm]; exact List.mem_append_left _ hr⟩

/-- What is taken now was pending. -/
theorem news_pn (o : OI s) (g : Go n (s.ch c) t) {i : Nat} (h : i ∈ s.news c t) : s.pn c n c i := by
  obtain ⟨h1, h2⟩ := (mem_news g.ci).1 h
  rcases g.new i (took_start g.ci h1) with h3 | h3
  · refine .inl ⟨h3, fun he => ?_⟩
    obtain ⟨r, hr⟩ := mem_endedW.1 he
    obtain ⟨m, hm⟩ := g.log
    have hr' := took_ok g.ci h1 (r := r) (by rw [hm]; exact List.mem_append_left _ hr)
    subst hr'
    have : took (s.ch c) i = true := by simp [took, hr]
    have := (o.got c i).1 this
    rw [h2] at this; cases this
  · exact .inr ⟨rfl, h3⟩

theorem pend_after (g : Go n (s.ch c) t) {c' i : Nat} (h : (s.chan c t).pendAt c' i) : s.pn c n c' i := by
  unfold St.pendAt at h
  rw [chan_ch] at h
  by_cases e : c' = c
  · subst e
    simp only [upd, if_true] at h
    rcases g.new i h.1 with h1 | h1
    · exact .inl ⟨h1, fun he => h.2 (g.ended he)⟩
    · exact .inr ⟨rfl, h1⟩
  · simp only [upd, e, if_false] at h
    exact .inl h

theorem got_none (g : Go n (s.ch c) t) {c' i : Nat} (h : (s.chan c t).got c' i = none) :
    (c' = c → i ∉ s.news c t) ∧ s.got c' i = none := by
  have h1 : c' = c → i ∉ s.news c t := by
    intro e hi; subst e
    have := takes_some (c := c') _ { s with ch := upd s.ch c' t } hi
    simp only [St.chan] at h
    rw [h] at this; cases this
  refine ⟨h1, ?_⟩
  simp only [St.chan] at h
  rwa [takes_keep _ _ h1] at h

theorem PI.val' (p : PI s c n) (o : OI s) (g : Go n (s.ch c) t) {c' i : Nat} (h : s.pn c n c' i)
    (hn : (s.chan c t).got c' i = none) : (s.chan c t).mem (s.src c' i) = s.given c' i := by
  obtain ⟨h1, h2⟩ := got_none g hn
  simp only [St.chan]
  rw [takes_mem, if_neg]
  · exact p.val c' i h h2
  · rintro ⟨j, hj, -, hs⟩
    obtain ⟨e1, e2⟩ := p.uniq _ _ _ _ (news_pn o g hj) h hs
    subst e2
    exact h1 e1.symm hj

theorem PI.chan (p : PI s c n) (o : OI s) (g : Go n (s.ch c) t) (c₁ : Nat) : PI (s.chan c t) c₁ none := by
  have pe : ∀ {c' i}, (s.chan c t).pn c₁ none c' i → s.pn c n c' i := by
    intro c' i h
    rcases h with h | ⟨-, h⟩
    · exact pend_after g h
    · cases h
  refine ⟨fun c' i v h => ?_, fun c' i h hn => ?_, fun c' i c'' j h1 h2 hs => ?_⟩
  · rw [chan_given]
    by_cases hi : c' = c ∧ i ∈ s.news c t
    · obtain ⟨e, hi⟩ := hi
      subst e
      simp only [St.chan] at h
      have hv := takes_val (c := c') _ { s with ch := upd s.ch c' t } (news_nodup s t) (fun a b ha hb hab =>
        (p.uniq _ _ _ _ (news_pn o g ha) (news_pn o g hb) hab).2) hi
      rw [hv] at h
      injection h with h
      rw [← h]
      exact p.val _ _ (news_pn o g hi) ((mem_news g.ci).1 hi).2
    · simp only [St.chan] at h
      rw [takes_keep _ _ fun e hj => hi ⟨e, hj⟩] at h
      exact p.eq _ _ _ h
  · rw [chan_src, chan_given]
    exact p.val' o g (pe h) hn
  · rw [chan_src] at hs
    exact p.uniq _ _ _ _ (pe h1) (pe h2) hs

theorem PI.any (p : PI s c none) (c₁ : Nat) : PI s c₁ none := by
  have pe : ∀ {c' i}, s.pn c₁ none c' i → s.pn c none c' i := by
    intro c' i h
    rcases h with h | ⟨-, h⟩
    · exact .inl h
    · cases h
  exact ⟨p.eq, fun c' i h => p.val c' i (pe h), fun c' i c'' j h1 h2 => p.uniq c' i c'' j (pe h1) (pe h2)⟩

theorem PI.point (p : PI s c none) (o : OI s) {x : Nat} (k : Kind) (hx : ¬ s.pending x) :
    PI (s.point c x k) c (some (s.ch c).nextW) := by
  have old : ∀ {c' i}, s.pendAt c' i → c' = c → i ≠ (s.ch c).nextW := by
    intro c' i h e he
    subst e; have := start_lt (o.ci c') h.1; omega
  have hs : ∀ {c' i}, s.pendAt c' i → s.src c' i ≠ x := fun h e => hx ⟨_, _, e, h.1, h.2⟩
  refine ⟨fun c' i v h => ?_, fun c' i h hn => ?_, fun c' i c'' j h1 h2 hs' => ?_⟩
  · have h' : s.got c' i = some v := h
    have hlt : c' = c → i ≠ (s.ch c).nextW := by
      intro e he; subst e
      have := took_lt (o.ci c') ((o.got c' i).2 (by rw [h']; rfl)); omega
    show v = upd₂ _ _ _ _ c' i
    rw [upd₂_diff _ _ hlt]
    exact p.eq _ _ _ h'
  · show s.mem (upd₂ _ _ _ _ c' i) = upd₂ _ _ _ _ c' i
    rcases h with h | ⟨e, h⟩
    · rw [upd₂_diff _ _ (old h), upd₂_diff _ _ (old h)]
      exact p.val _ _ (.inl h) hn
    · injection h with h
      subst e h
      rw [upd₂_same, upd₂_same]
  · change upd₂ _ _ _ _ c' i = upd₂ _ _ _ _ c'' j at hs'
    rcases h1 with h1 | ⟨e1, h1⟩ <;> rcases h2 with h2 | ⟨e2, h2⟩
    · rw [upd₂_diff _ _ (old h1), upd₂_diff _ _ (old h2)] at hs'
      exact p.uniq _ _ _ _ (.inl h1) (.inl h2) hs'
    · injection h2 with h2
      subst e2 h2
      rw [upd₂_diff _ _ (old h1), upd₂_same] at hs'
      exact absurd hs' (hs h1)
    · injection h1 with h1
      subst e1 h1
      rw [upd₂_diff _ _ (old h2), upd₂_same] at hs'
      exact absurd hs'.symm (hs h2)
    · injection h1 with h1
      injection h2 with h2
      exact ⟨e1.trans e2.symm, h1.symm.trans h2⟩

theorem PI.set (p : PI s c none) {x : Nat} (v : Nat) (hx : ¬ s.pending x) : PI (s.step (.set x v)) c none := by
  refine ⟨p.eq, fun c' i h hn => ?_, p.uniq⟩
  have hs : s.src c' i ≠ x := by
    rcases h with h | ⟨-, h⟩
    · exact fun e => hx ⟨_, _, e, h.1, h.2⟩
    · cases h
  show upd s.mem x (some v) (s.src c' i) = _
  rw [show upd s.mem x (some v) (s.src c' i) = s.mem (s.src c' i) by simp [upd, hs]]
  exact p.val c' i h hn

theorem PI.init (cap m : Nat → Nat) (c : Nat) : PI (St.init cap m) c none := by
  have no : ∀ {c' i}, ¬ (St.init cap m).pn c none c' i := by
    intro c' i h
    rcases h with h | ⟨-, h⟩
    · simp [St.pendAt, St.init, Chan.St.init] at h
    · cases h
  exact ⟨fun c' i v h => by simp [St.init] at h, fun _ _ h => absurd h no, fun _ _ _ _ h => absurd h no⟩

theorem PI.step (p : PI s 0 none) (o : OI s) (e : Ev) (hp : ∀ x, e.touches x → ¬ s.pending x) (hf : (s.step e).fine) :
    PI (s.step e) 0 none := by
  rcases (step_cases o e hf).2 with ⟨x, v, rfl⟩ | h | ⟨c, t, g, h⟩ | ⟨c, x, k, conn, txn, hits, t, rfl, g, h⟩
  · exact p.set v (hp x rfl)
  · rw [h]; exact p
  · rw [h]; exact (p.any c).chan o g 0
  · rw [h]; exact ((p.any c).point o k (hp x rfl)).chan (point_ok o x k) g 0

theorem Proper.snoc {cap m : Nat → Nat} {es : List Ev} {e : Ev} (h : Proper cap m (es ++ [e])) :
    Proper cap m es ∧ ∀ x, e.touches x → ¬ (run cap m es).pending x :=
  ⟨fun es₁ e' es₂ x he hx => h es₁ e' (es₂ ++ [e]) x (by rw [he]; simp) hx, fun x hx => h es e [] x rfl hx⟩

theorem own_ind {P : List Ev → Prop} (h0 : P []) (h1 : ∀ l x, P l → P (l ++ [x])) (l : List Ev) : P l := by
  have : ∀ l : List Ev, P l.reverse := by
    intro l
    induction l with
    | nil => exact h0
    | cons e l ih => rw [List.reverse_cons]; exact h1 _ _ ih
  have h := this l.reverse
  rwa [List.reverse_reverse] at h

theorem PI.run {cap m : Nat → Nat} {es : List Ev} (hf : (run cap m es).fine) (hp : Proper cap m es) :
    PI (run cap m es) 0 none := by
  revert hf hp
  refine own_ind (P := fun es => (Own.run cap m es).fine → Proper cap m es → PI (Own.run cap m es) 0 none)
    (fun _ _ => PI.init cap m 0) (fun es e ih hf hp => ?_) es
  rw [run_snoc] at hf ⊢
  exact (ih (fine_step hf) hp.snoc.1).step (OI.run (fine_step hf)) e hp.snoc.2 hf

/-- The variables and overloads of the operations are those of the program. -/
theorem from_write {cap m : Nat → Nat} {es : List Ev} (hf : (run cap m es).fine) {c i : Nat}
    (h : Obs.startW i ∈ ((run cap m es).ch c).log) :
    ∃ conn txn hits, .write c ((run cap m es).src c i) ((run cap m es).kind c i) conn txn hits ∈ es := by
  revert hf h
  refine own_ind (P := fun es => (Own.run cap m es).fine → Obs.startW i ∈ ((Own.run cap m es).ch c).log →
    ∃ conn txn hits, .write c ((Own.run cap m es).src c i) ((Own.run cap m es).kind c i) conn txn hits ∈ es)
    (fun _ h => by simp [Own.run, St.init, Chan.St.init] at h) (fun es e ih hf h => ?_) es
  rw [run_snoc] at hf h ⊢
  have o := OI.run (fine_step hf)
  have ih := ih (fine_step hf)
  generalize Own.run cap m es = s at *
  have lift : (∃ conn txn hits, Ev.write c (s.src c i) (s.kind c i) conn txn hits ∈ es) →
      ∃ conn txn hits, Ev.write c (s.src c i) (s.kind c i) conn txn hits ∈ es ++ [e] := by
    intro ⟨a, b, d, hm⟩; exact ⟨a, b, d, List.mem_append_left _ hm⟩
  rcases (step_cases o e hf).2 with ⟨x, v, he⟩ | h' | ⟨c', t, g, h'⟩ | ⟨c', x, k, conn, txn, hits, t, he, g, h'⟩
  · subst he; exact lift (ih h)
  · rw [h'] at h ⊢; exact lift (ih h)
  · rw [h'] at h ⊢
    rw [chan_src, chan_kind]
    rw [chan_ch] at h
    refine lift (ih ?_)
    by_cases e1 : c = c'
    · subst e1
      simp only [upd, if_true] at h
      rcases g.new i h with h | h
      · exact h
      · cases h
    · simpa only [upd, e1, if_false] using h
  · rw [h'] at h ⊢
    rw [chan_src, chan_kind]
    rw [chan_ch] at h
    by_cases e1 : c = c' ∧ i = (s.ch c').nextW
    · obtain ⟨rfl, rfl⟩ := e1
      refine ⟨conn, txn, hits, List.mem_append_right _ ?_⟩
      rw [he]
      simp [St.point, upd₂_same]
    · have hd : c = c' → i ≠ (s.ch c').nextW := fun a b => e1 ⟨a, b⟩
      have e2 : (s.point c' x k).src c i = s.src c i := upd₂_diff _ _ hd
      have e3 : (s.point c' x k).kind c i = s.kind c i := upd₂_diff _ _ hd
      rw [e2, e3]
      refine lift (ih ?_)
      by_cases e1 : c = c'
      · subst e1
        simp only [upd, if_true] at h
        rcases g.new i h with h | h
        · exact h
        · injection h with h; exact absurd h.symm (hd rfl)
      · simp only [upd, e1, if_false] at h; exact h

/-- What a step does to a variable that is not assigned. -/
theorem step_mem {s : St} (o : OI s) {e : Ev} (hf : (s.step e).fine) {x : Nat} (he : ∀ v, e ≠ .set x v) :
    ((s.step e).mem x = none ∧ ∃ c i, s.got c i = none ∧ ((s.step e).got c i).isSome = true ∧ (s.step e).src c i = x ∧
      ((s.step e).kind c i).moves = true) ∨
    ((s.step e).mem x = s.mem x ∧ ¬ ∃ c i, s.got c i = none ∧ ((s.step e).got c i).isSome = true ∧
      (s.step e).src c i = x ∧ ((s.step e).kind c i).moves = true) := by
  have key : ∀ (s : St) c t, Ci t →
      ((s.chan c t).mem x = none ∧ ∃ c' i, s.got c' i = none ∧ ((s.chan c t).got c' i).isSome = true ∧
        (s.chan c t).src c' i = x ∧ ((s.chan c t).kind c' i).moves = true) ∨
      ((s.chan c t).mem x = s.mem x ∧ ¬ ∃ c' i, s.got c' i = none ∧ ((s.chan c t).got c' i).isSome = true ∧
        (s.chan c t).src c' i = x ∧ ((s.chan c t).kind c' i).moves = true) := by
    intro s c t ht
    rw [chan_src, chan_kind]
    by_cases h : ∃ i, i ∈ s.news c t ∧ (s.kind c i).moves = true ∧ s.src c i = x
    · refine .inl ⟨?_, ?_⟩
      · simp only [St.chan]; rw [takes_mem, if_pos h]
      · obtain ⟨i, h1, h2, h3⟩ := h
        exact ⟨c, i, ((mem_news ht).1 h1).2, takes_some _ { s with ch := upd s.ch c t } h1, h3, h2⟩
    · refine .inr ⟨?_, ?_⟩
      · simp only [St.chan]; rw [takes_mem, if_neg h]
      · intro ⟨c', i, h1, h2, h3, h4⟩
        by_cases hi : c' = c ∧ i ∈ s.news c t
        · obtain ⟨rfl, hi⟩ := hi
          exact h ⟨i, hi, h4, h3⟩
        · simp only [St.chan] at h2
          rw [takes_keep _ _ fun e hj => hi ⟨e, hj⟩] at h2
          change (s.got c' i).isSome = true at h2
          rw [h1] at h2; cases h2
  rcases (step_cases o e hf).2 with ⟨y, v, rfl⟩ | h | ⟨c, t, g, h⟩ | ⟨c, y, k, conn, txn, hits, t, rfl, g, h⟩
  · refine .inr ⟨?_, ?_⟩
    · have : x ≠ y := fun e => he v (by rw [e])
      simp [St.step, upd, this]
    · rintro ⟨c', i, h1, h2, -⟩
      change (s.got c' i).isSome = true at h2
      rw [h1] at h2; cases h2
  · rw [h]
    refine .inr ⟨rfl, ?_⟩
    rintro ⟨c', i, h1, h2, -⟩
    rw [h1] at h2; cases h2
  · rw [h]; exact key s c t g.ci
  · rw [h]; exact key (s.point c y k) c t g.ci

/-- A write that fails leaves its variable alone. -/
theorem PI.failed {s : St} {c : Nat} {n : Option Nat} {t : Chan.St} (p : PI s c n) (o : OI s) (g : Go n (s.ch c) t)
    {c' i : Nat} {r : WRes} (hr : r ≠ .ok) (h0 : Obs.doneW i r ∉ (s.ch c').log)
    (h1 : Obs.doneW i r ∈ ((s.chan c t).ch c').log) :
    (s.chan c t).got c' i = none ∧ (s.chan c t).mem ((s.chan c t).src c' i) = (s.chan c t).given c' i := by
  have o' := o.chan g
  have hg : (s.chan c t).got c' i = none := by
    cases h : (s.chan c t).got c' i with
    | none => rfl
    | some v => exact absurd (took_ok (o'.ci c') ((o'.got c' i).2 (by rw [h]; rfl)) h1) hr
  refine ⟨hg, ?_⟩
  rw [chan_src, chan_given]
  refine p.val' o g ?_ hg
  have ci := (o'.ci c')
  rw [chan_ch] at h1 ci
  by_cases e : c' = c
  · subst e
    simp only [upd, if_true] at h1 ci
    rcases g.new i (ci.tk.esW i r h1) with h | h
    · refine .inl ⟨h, fun he => ?_⟩
      obtain ⟨r', hr'⟩ := mem_endedW.1 he
      obtain ⟨l, hl⟩ := g.log
      have := Chan.one_resultW ci.tk.ndEW (by rw [hl]; exact List.mem_append_left _ hr') h1
      subst this
      exact h0 hr'
    · exact .inr ⟨rfl, h⟩
  · simp only [upd, e, if_false] at h1
    exact absurd h1 h0

/-- Nobody waits in a write. -/
theorem not_pending {s : St} (h : ∀ c, ∀ i ∈ Chan.startsW (s.ch c).log, i ∈ Chan.endedW (s.ch c).log) (x : Nat) :
    ¬ s.pending x := fun ⟨c, i, _, h1, h2⟩ => h2 (h c i (mem_startsW.2 h1))

theorem proper_of {cap m : Nat → Nat} {es : List Ev} (h : ∀ k, k < es.length → ∀ x, (es[k]?.map (Ev.touches x)).getD False →
    ¬ (run cap m (es.take k)).pending x) : Proper cap m es := by
  intro es₁ e es₂ x he hx
  have := h es₁.length (by rw [he]; simp) x (by rw [he]; simpa using hx)
  rwa [he, List.take_left] at this

end Cobalt.Own
