import Verif.Again.PromProps
/-! Only promises whose coroutine has ended win races. -/
namespace Cobalt.Again

open Comb (Cfg)

/-- The coroutine has not ended, and nobody has got anything but errors from its promise. -/
def Unended (s : Prom.St) : Prop := ∃ R, Sound s R ∧ R.done = false ∧ ∀ x ∈ s.log, ∃ e, x.2 = Prom.Got.err e

/-- Promises of coroutines that have done nothing. -/
def Idles (s : St prom) (es : List (Ev prom)) : Prop := ∀ j, (∀ o, Ev.act j o ∉ es) → Unended (s.src j)

theorem Unended.ask {s : Prom.St} (h : Unended s) (a : Nat) (hn : ∀ R, Sound s R → R.awaited = none) : Unended (s.await a 0) := by
  obtain ⟨R, h1, h2, h3⟩ := h
  obtain ⟨R', r1, r2, -, r3⟩ := h1.ask a (hn R h1)
  refine ⟨R', r1, by rw [r2, h2], ?_⟩
  rcases r3 with ⟨-, -, -, r4⟩ | ⟨r4, g, r5, -⟩
  · rw [r4]; exact h3
  · -- it waits, so nothing was handed over
    exfalso
    have : (s.await a 0).log = s.log := by
      unfold Prom.St.await
      rw [h1.recv]
      dsimp only
      rw [if_neg (by simp [h2]), if_neg (by simp [hn R h1])]
    rw [this] at r5
    have := congrArg List.length r5
    simp at this

theorem Unended.intr {s : Prom.St} (h : Unended s) {a : Nat} (hn : ∀ R, Sound s R → R.awaited = some a) : Unended (s.interrupt a) := by
  obtain ⟨R, h1, h2, h3⟩ := h
  obtain ⟨R', r1, r2, -, -, -, r3⟩ := h1.intr (hn R h1)
  refine ⟨R', r1, by rw [r2, h2], ?_⟩
  rw [r3]
  intro x hx
  rcases List.mem_cons.1 hx with rfl | hx
  · exact ⟨_, rfl⟩
  · exact h3 x hx

theorem Idles.step {c : Cfg} (hc : Proper c) {s : St prom} {evs : List Comb.Ev}
    (h : Good (fun s => ∃ R, Sound s R) c s evs) {es : List (Ev prom)} (k : Idles s es) {e : Ev prom}
    (hcan : s.can c e = true) (hu : (s.step c e).ub = false) : Idles (s.step c e) (es ++ [e]) := by
  have hk := h.cases prom_ok hc hcan hu
  generalize s.step c e = t at hk
  clear hu
  have waits : ∀ i R, Sound (s.src i) R → R.awaited = if s.comb.child i = .waiting then some s.round else none := by
    intro i R hR
    rw [← h.waits i]
    show _ = ((s.src i).recv 0).bind _
    rw [hR.recv]; rfl
  have old : ∀ {t : St prom}, (∀ j, (∀ o, e ≠ .act j o) → Unended (s.src j) → Unended (t.src j)) → Idles t (es ++ [e]) := by
    intro t h1 j hj
    refine h1 j (fun o ho => hj o (by rw [← ho]; simp)) (k j fun o ho => hj o (List.mem_append_left _ ho))
  cases hk with
  | calm ce hx => exact old fun j _ h => h
  | ready i p d g hi hI hg hcan' =>
    refine old fun j _ hj => ?_
    dsimp only
    rw [Comb.upd_apply]
    split
    · rename_i hji; subst hji
      refine hj.ask s.round fun R h1 => ?_
      rw [waits j R h1, if_neg]
      obtain ⟨_, _, ha⟩ := h.all hc
      rw [(ha.inv.asking j).2 (by rw [Comb.tags_of_head (asked_eq hi)]; simp [Comb.Frame.tag])]
      simp
    · exact hj
  | notReady i p d hi =>
    refine old fun j _ hj => ?_
    dsimp only
    rw [Comb.upd_apply]
    split
    · rename_i hji; subst hji
      refine hj.ask s.round fun R h1 => ?_
      rw [waits j R h1, if_neg]
      obtain ⟨_, _, ha⟩ := h.all hc
      rw [(ha.inv.asking j).2 (by rw [Comb.tags_of_head (asked_eq hi)]; simp [Comb.Frame.tag])]
      simp
    · exact hj
  | stays i b =>
    refine old fun j hne hj => ?_
    dsimp only
    rw [Comb.upd_apply, if_neg fun hji => hne b (by rw [hji])]
    exact hj
  | gives i b =>
    refine old fun j hne hj => ?_
    dsimp only
    rw [Comb.upd_apply, if_neg fun hji => hne b (by rw [hji])]
    exact hj
  | cut i g hI hi hc' hg hw =>
    refine old fun j _ hj => ?_
    dsimp only
    rw [Comb.upd_apply]
    split
    · rename_i hji; subst hji
      exact hj.intr fun R h1 => by rw [waits j R h1, if_pos hw]
    · exact hj
  | next => exact old fun j _ h => h

theorem Idles.steps {c : Cfg} (hc : Proper c) : ∀ (es : List (Ev prom)) {s : St prom}
    {evs : List Comb.Ev} {old : List (Ev prom)}, Good (fun s => ∃ R, Sound s R) c s evs → Idles s old → Legal c s es →
    (s.steps c es).fine → Idles (s.steps c es) (old ++ es)
  | [], _, _, old, _, f, _, _ => by rw [List.append_nil]; exact f
  | e :: es, s, _, old, h, f, hl, hf => by
    have hf1 := fine_step hf
    obtain ⟨evs', h'⟩ := h.step prom_ok hc hl.1 hf1.1 hf1.2
    have := Idles.steps hc es h' (f.step hc h hl.1 hf1.1) hl.2 hf
    rw [List.append_assoc] at this
    exact this

/-- **C93, when it holds**: a race is won only by a promise whose coroutine has ended. So the second race is won by another promise
only if that one has ended, too. -/
theorem C93_ended {c : Cfg} (hc : Proper c) {es : List (Ev prom)} (hl : Legal c proms es)
    (hf : (proms.steps c es).fine) {r i : Nat} {x : Option Nat} (h : (r, .winner i x) ∈ (proms.steps c es).gave) :
    ∃ o, Ev.act i o ∈ es := by
  refine Classical.byContradiction fun hn => ?_
  have h0 : Good (fun s => ∃ R, Sound s R) c proms [] := Good.start proms_start c
  obtain ⟨_, hg⟩ := h0.steps prom_ok hc es hl hf
  have hi := Idles.steps hc es h0 (old := []) (fun j _ => ⟨_, sound_start, rfl, fun x hx => by cases hx⟩) hl hf
  obtain ⟨R, -, -, hlog⟩ := hi i fun o ho => hn ⟨o, ho⟩
  obtain ⟨j, g, h1, h2⟩ := hg.old r _ h
  have h3 := List.mem_of_getLast? h1
  have hji : j = i ∧ ∀ e, g ≠ .err e := by
    cases g with
    | val v => simp [given, promOut] at h2; exact ⟨h2.1.symm, fun e h => by cases h⟩
    | moved => simp [given, promOut] at h2; exact ⟨h2.1.symm, fun e h => by cases h⟩
    | err e => simp [given, promOut] at h2
  obtain ⟨rfl, hne⟩ := hji
  unfold handedTo at h3
  rw [List.mem_filterMap] at h3
  obtain ⟨⟨r₁, j₁, g₁⟩, h4, h5⟩ := h3
  simp only [Option.ite_none_right_eq_some, Option.some.injEq, Prod.mk.injEq] at h5
  obtain ⟨rfl, rfl, rfl⟩ := h5
  have h6 : ((proms.steps c es).src j₁).log = _ := hg.log j₁
  have h7 : (r₁, g₁) ∈ ((proms.steps c es).src j₁).log := by
    rw [h6, List.mem_filterMap]
    exact ⟨_, h4, by simp⟩
  obtain ⟨e, he⟩ := hlog _ h7
  exact hne e he

/-- **C93, exactly when only one has ended**: while only promise `i` is done, every race is over at once, and no race is won by
another. -/
theorem C93_alone {c : Cfg} (hc : Proper c) {es : List (Ev prom)} (hl : Legal c proms es) (hm : Marked es)
    (hf : (proms.steps c es).fine) {i : Nat} (hi : i < c.n) {o : Prom.Out} (ha : Ev.act i o ∈ es)
    (ho : ∀ j p, Ev.act j p ∈ es → j = i) :
    (∀ r j x, (r, .winner j x) ∈ (proms.steps c es).gave → j = i) ∧
    ((proms.steps c es).comb.stack = [] → (proms.steps c es).comb.phase ≠ .before → (proms.steps c es).comb.over) := by
  refine ⟨fun r j x h => ?_, fun hs hp => C93_ready hc hl hm hf hi ha hs hp⟩
  obtain ⟨p, hp⟩ := C93_ended hc hl hf h
  exact ho j p hp

set_option maxRecDepth 20000 in
example : Legal (two [0, 1]) proms twice ∧ Marked twice ∧ (proms.steps (two [0, 1]) twice).fine ∧
    (0, .winner 0 (some 8)) ∈ (proms.steps (two [0, 1]) twice).gave ∧ Ev.act 0 (Prom.Out.val 7) ∈ twice := by
  refine ⟨by decide, by simp [Marked, twice, Ev.marked], by decide, by decide, by simp [twice]⟩

end Cobalt.Again
