import Verif.Gen.PushLemmas
/-!
# Lemmas for C31: where every pushed value is, of lazy generators too
-/
namespace Cobalt.Gen

open Prom (upd upd_apply)

def keeps (f : Nat → Option Aw) (a : Nat) : Bool := ((f a).map Aw.toPush).getD false

structure AI (es : List Ev) (s : St) : Prop where
  link : ∀ x, x ∈ awaits es → ∃ w, s.aw x.1 = some w
  nd : ((awaits es).map Prod.fst).Nodup
  own : ∀ a w, s.aw a = some w → w.toPush = true → (a, w.push) ∈ awaits es
  valh : ∀ a w v, s.aw a = some w → w.got = some (.val v) → w.toPush = false
  wait : ∀ a, s.awaited = some a → ∃ w, s.aw a = some w
  perm : ((awaits es).map Prod.snd).Perm (s.received ++ s.pushed.toList ++
    ((awaits es).filter fun x => keeps s.aw x.1).map Prod.snd)

theorem AI.init (v : Bool) : AI [] { void := v } := by
  constructor <;> simp [awaits]

theorem awaits_snoc (es : List Ev) (e : Ev) : awaits (es ++ [e]) = awaits es ++ (match e with
    | .await a p => [(a, p)]
    | _ => []) := by
  unfold awaits
  rw [List.filterMap_append]
  congr 1
  cases e <;> rfl

theorem AI.more {es : List Ev} {s : St} (h : AI es s) (e : Ev) (he : awaits (es ++ [e]) = awaits es) :
    AI (es ++ [e]) s := by
  obtain ⟨h1, h2, h3, h4, h5, h6⟩ := h
  constructor
  · rw [he]; exact h1
  · rw [he]; exact h2
  · rw [he]; exact h3
  · exact h4
  · exact h5
  · rw [he]; exact h6

/-- Nothing about pushed values changes. -/
theorem AI.frame {es : List Ev} {s s' : St} (h : AI es s) (h1 : s'.received ++ s'.pushed.toList = s.received ++ s.pushed.toList)
    (h2 : ∀ a, (s.aw a).isSome = true → (s'.aw a).isSome = true) (h3 : ∀ a, keeps s'.aw a = keeps s.aw a)
    (h4 : ∀ a w, s'.aw a = some w → w.toPush = true → ∃ w', s.aw a = some w' ∧ w'.toPush = true ∧ w'.push = w.push)
    (h5 : ∀ a w v, s'.aw a = some w → w.got = some (.val v) → w.toPush = false)
    (h6 : ∀ a, s'.awaited = some a → (s'.aw a).isSome = true) : AI es s' := by
  refine ⟨fun x hx => ?_, h.nd, fun a w ha hw => ?_, h5, fun a ha => ?_, ?_⟩
  · obtain ⟨w, hw⟩ := h.link x hx
    exact Option.isSome_iff_exists.mp (h2 x.1 (by rw [hw]; rfl))
  · obtain ⟨w', q1, q2, q3⟩ := h4 a w ha hw
    rw [← q3]; exact h.own a w' q1 q2
  · exact Option.isSome_iff_exists.mp (h6 a ha)
  · rw [h1]
    have : (fun x : Nat × Nat => keeps s'.aw x.1) = fun x => keeps s.aw x.1 := by funext x; exact h3 x.1
    rw [this]; exact h.perm

theorem AI.same {es : List Ev} {s s' : St} (h : AI es s) (h1 : s'.received ++ s'.pushed.toList = s.received ++ s.pushed.toList)
    (h2 : s'.aw = s.aw) (h3 : ∀ a, s'.awaited = some a → (s.aw a).isSome = true) : AI es s' :=
  h.frame h1 (fun a ha => by rw [h2]; exact ha) (fun a => by rw [h2])
    (fun a w ha hw => ⟨w, by rw [← h2]; exact ha, hw, rfl⟩) (fun a w v ha => by rw [h2] at ha; exact h.valh a w v ha)
    (fun a ha => by rw [h2]; exact h3 a ha)

theorem AI.waits {es : List Ev} {s : St} (h : AI es s) (a : Nat) (ha : s.awaited = some a) : (s.aw a).isSome = true := by
  obtain ⟨w, hw⟩ := h.wait a ha; rw [hw]; rfl

/-- The await `a` is changed, but not whether it has its value. -/
theorem AI.set {es : List Ev} {s s' : St} {a : Nat} {w w' : Aw} (h : AI es s)
    (h1 : s'.received ++ s'.pushed.toList = s.received ++ s.pushed.toList) (ha : s.aw a = some w)
    (haw : s'.aw = upd s.aw a (some w')) (hp : w'.push = w.push) (ht : w'.toPush = w.toPush)
    (hg : ∀ v, w'.got = some (.val v) → w'.toPush = false) (hw : ∀ b, s'.awaited = some b → s.awaited = some b) :
    AI es s' := by
  refine h.frame h1 ?_ ?_ ?_ ?_ ?_
  · intro b hb; rw [haw, upd_apply]; split
    · rfl
    · exact hb
  · intro b; rw [haw]; simp only [keeps, upd_apply]; split
    · rename_i e; subst e; rw [ha]; simp [ht]
    · rfl
  · intro b x hb hx; rw [haw, upd_apply] at hb; split at hb
    · rename_i e; subst e; cases hb; exact ⟨w, ha, ht ▸ hx, hp.symm⟩
    · exact ⟨x, hb, hx, rfl⟩
  · intro b x v hb; rw [haw, upd_apply] at hb; split at hb
    · cases hb; exact hg v
    · exact h.valh b x v hb
  · intro b hb; rw [haw, upd_apply]; split
    · rfl
    · exact h.waits b (hw b hb)

theorem filter_hand (a p : Nat) (f g : Nat → Bool) : ∀ l : List (Nat × Nat), (l.map Prod.fst).Nodup → (a, p) ∈ l →
    f a = true → g a = false → (∀ b, b ≠ a → g b = f b) →
    ((l.filter fun x => f x.1).map Prod.snd).Perm (p :: (l.filter fun x => g x.1).map Prod.snd)
  | [], _, h, _, _, _ => by cases h
  | x :: l, hn, hm, hf, hg, hfg => by
    simp only [List.map_cons, List.nodup_cons] at hn
    rcases List.mem_cons.mp hm with e | e
    · subst e
      have : (l.filter fun x => f x.1) = l.filter fun x => g x.1 := by
        refine List.filter_congr fun y hy => ?_
        have : y.1 ≠ a := fun e => hn.1 (List.mem_map.mpr ⟨y, hy, e⟩)
        rw [hfg _ this]
      simp [List.filter_cons, hf, hg, this]
    · have hx : x.1 ≠ a := fun e' => hn.1 (List.mem_map.mpr ⟨(a, p), e, e'.symm⟩)
      have ih := filter_hand a p f g l hn.2 e hf hg hfg
      simp only [List.filter_cons, hfg _ hx]
      split
      · simp only [List.map_cons]
        exact (ih.cons _).trans (List.Perm.swap _ _ _)
      · exact ih

/-- The await `a` gives its value to the body. -/
theorem AI.hand {es : List Ev} {s s' : St} {a : Nat} {w w' : Aw} (h : AI es s) (hr : s'.received = s.received)
    (hn : s.pushed = none) (hp : s'.pushed = some w.push) (ha : s.aw a = some w) (hw : w.toPush = true)
    (haw : s'.aw = upd s.aw a (some w')) (ht : w'.toPush = false)
    (hwt : ∀ b, s'.awaited = some b → b = a ∨ s.awaited = some b) : AI es s' := by
  refine ⟨fun x hx => ?_, h.nd, fun b x hb hx => ?_, fun b x v hb hx => ?_, fun b hb => ?_, ?_⟩
  · rw [haw, upd_apply]; split
    · exact ⟨_, rfl⟩
    · exact h.link x hx
  · rw [haw, upd_apply] at hb; split at hb
    · cases hb; rw [ht] at hx; cases hx
    · exact h.own b x hb hx
  · rw [haw, upd_apply] at hb; split at hb
    · cases hb; exact ht
    · exact h.valh b x v hb hx
  · rw [haw, upd_apply]; split
    · exact ⟨_, rfl⟩
    · rename_i hne
      rcases hwt b hb with e | e
      · exact absurd e hne
      · exact h.wait b e
  · have hm := h.own a w ha hw
    have k := filter_hand a w.push (keeps s.aw) (keeps s'.aw) _ h.nd hm (by simp [keeps, ha, hw])
      (by simp [keeps, haw, upd_apply, ht]) (fun b hb => by simp [keeps, haw, upd_apply, hb])
    refine h.perm.trans ?_
    rw [hr, hn, hp]
    simp only [Option.toList_none, Option.toList_some, List.append_nil, List.append_assoc]
    exact List.Perm.append_left _ (by simpa using k)

theorem AI.resumeAw {es : List Ev} {s : St} {a : Nat} (h : AI es s) (ha : (s.aw a).isSome = true)
    (hu : (s.resumeAw a).ub = false) : AI es (s.resumeAw a) := by
  obtain ⟨w, ha⟩ := Option.isSome_iff_exists.mp ha
  revert hu
  unfold St.resumeAw
  rw [ha]
  dsimp only
  rcases hx : w.ex with _ | x
  · dsimp only
    rcases hy : s.exc with _ | x
    · dsimp only
      rcases hr : s.result with _ | v
      · exact fun _ => h.set rfl ha rfl rfl rfl (fun v hv => by cases hv) (fun _ => id)
      · dsimp only
        split
        · rename_i hw
          split
          · intro hu; simp at hu
          · rename_i hp
            intro _
            exact h.hand rfl (by simpa using hp) rfl ha hw rfl rfl (fun _ => Or.inr)
        · rename_i hw
          intro _
          exact h.set rfl ha rfl rfl rfl (fun _ _ => by simpa using hw) (fun _ => id)
    · exact fun _ => h.set rfl ha rfl rfl rfl (fun v hv => by cases hv) (fun _ => id)
  · exact fun _ => h.set rfl ha rfl rfl rfl (fun v hv => by cases hv) (fun _ => id)

theorem AI.wake {es : List Ev} {s : St} (h : AI es s) (hu : s.wake.ub = false) : AI es s.wake := by
  revert hu
  unfold St.wake
  rcases ha : s.awaited with _ | a
  · exact fun _ => h
  · intro hu
    have h' : AI es { s with awaited := none } := h.same rfl rfl (by simp)
    exact h'.resumeAw (h.waits a ha) hu

theorem AI.bodyResume {es : List Ev} {s : St} (h : AI es s) (hu : s.bodyResume.ub = false) : AI es s.bodyResume := by
  revert hu
  unfold St.bodyResume
  rcases hp : s.pushed with _ | v
  · intro hu; simp at hu
  · intro _
    obtain ⟨h1, h2, h3, h4, h5, h6⟩ := h
    refine ⟨h1, h2, h3, h4, h5, ?_⟩
    refine h6.trans ?_
    rw [hp]
    simp only [Option.toList_none, Option.toList_some, List.append_nil, List.cons_append]
    rw [List.append_assoc]
    exact List.perm_middle

theorem AI.suspend {es : List Ev} {s : St} (h : AI es s) (hu : s.suspend.ub = false) : AI es s.suspend := by
  revert hu
  unfold St.suspend
  split
  · exact fun _ => h.same rfl rfl h.waits
  · split
    · exact h.bodyResume
    · have h' : AI es { s with phase := .parked } := h.same rfl rfl h.waits
      exact h'.wake

theorem AI.finish {es : List Ev} {s : St} (h : AI es s) (hu : s.finish.ub = false) : AI es s.finish := by
  have h' : AI es { s with phase := .gone, done := true } := h.same rfl rfl h.waits
  exact h'.wake hu

theorem AI.put {es : List Ev} {s : St} (h : AI es s) (v : Nat) : AI es (s.put v) := by
  unfold St.put
  split
  · exact h.same rfl rfl h.waits
  · split <;> exact h.same rfl rfl h.waits

theorem AI.interrupt {es : List Ev} {s : St} (h : AI es s) (a : Nat) (hu : (s.interrupt a).ub = false) :
    AI es (s.interrupt a) := by
  revert hu
  unfold St.interrupt
  rcases ha : s.aw a with _ | w
  · intro hu; simp at hu
  · have h' : AI es { s with aw := upd s.aw a (some { w with ex := some .detached }) } :=
      h.set rfl ha rfl rfl rfl (fun v hv => h.valh a w v ha hv) (fun _ => id)
    exact fun hu => h'.wake hu

theorem AI.get {es : List Ev} {s : St} (h : AI es s) {a : Nat} (ha : s.aw a = none) (hu : (s.get a).ub = false) :
    AI es (s.get a) := by
  have hna : ∀ s' : St, s'.aw = s.aw → s'.awaited = s.awaited → s'.received ++ s'.pushed.toList = s.received ++ s.pushed.toList →
      ∀ g : Got, AI es (s'.give a { push := 0, toPush := false } g) := by
    intro s' e1 e2 e3 g
    refine h.frame e3 ?_ ?_ ?_ ?_ ?_
    · intro b hb; simp only [St.give, upd_apply, e1]; split
      · rfl
      · exact hb
    · intro b; simp only [St.give, keeps, upd_apply, e1]; split
      · rename_i e; subst e; rw [ha]; rfl
      · rfl
    · intro b w hb hw; simp only [St.give, upd_apply, e1] at hb; split at hb
      · cases hb; cases hw
      · exact ⟨w, hb, hw, rfl⟩
    · intro b w v hb hw; simp only [St.give, upd_apply, e1] at hb; split at hb
      · cases hb; rfl
      · exact h.valh b w v hb hw
    · intro b hb; simp only [St.give, upd_apply, e1]; split
      · rfl
      · exact h.waits b (e2 ▸ hb)
  revert hu
  unfold St.get
  split
  · exact fun _ => hna s rfl rfl rfl _
  · split
    · intro hu; simp at hu
    · exact fun _ => hna { s with result := s.buffer, buffer := none } rfl rfl rfl _

theorem AI.await {es : List Ev} {s : St} (h : AI es s) {a p : Nat} (ha : s.aw a = none)
    (hu : (s.await a p).ub = false) : AI (es ++ [.await a p]) (s.await a p) := by
  have hl : awaits (es ++ [.await a p]) = awaits es ++ [(a, p)] := awaits_snoc es (.await a p)
  have hni : ∀ x, x ∈ awaits es → x.1 ≠ a := fun x hx e => by
    obtain ⟨w, hw⟩ := h.link x hx; rw [e, ha] at hw; cases hw
  have key : ∀ x : Option Err, AI (es ++ [.await a p]) { s with aw := upd s.aw a (some { push := p, ex := x }) } := by
    intro x
    refine ⟨fun y hy => ?_, ?_, fun b w hb hw => ?_, fun b w v hb hw => ?_, fun b hb => ?_, ?_⟩
    · dsimp only; rw [upd_apply]; split
      · exact ⟨_, rfl⟩
      · rename_i hne
        rw [hl] at hy
        rcases List.mem_append.mp hy with hy | hy
        · exact h.link y hy
        · simp at hy; subst hy; exact absurd rfl hne
    · rw [hl, List.map_append, List.nodup_append]
      refine ⟨h.nd, by simp, ?_⟩
      intro y hy z hz
      simp at hz; subst hz
      obtain ⟨q, hq, e⟩ := List.mem_map.mp hy
      rw [← e]; exact hni q hq
    · dsimp only at hb; rw [upd_apply] at hb; rw [hl]; split at hb
      · rename_i e; subst e; cases hb; simp
      · exact List.mem_append_left _ (h.own b w hb hw)
    · dsimp only at hb; rw [upd_apply] at hb; split at hb
      · cases hb; cases hw
      · exact h.valh b w v hb hw
    · dsimp only; rw [upd_apply]; split
      · exact ⟨_, rfl⟩
      · exact h.wait b hb
    · dsimp only
      rw [hl, List.map_append, List.filter_append, List.map_append, ← List.append_assoc]
      have e1 : ((awaits es).filter fun y => keeps (upd s.aw a (some { push := p, ex := x })) y.1) =
          (awaits es).filter fun y => keeps s.aw y.1 :=
        List.filter_congr fun y hy => by simp [keeps, upd_apply, hni y hy]
      rw [e1]
      have e2 : ([(a, p)].filter fun y => keeps (upd s.aw a (some { push := p, ex := x })) y.1) = [(a, p)] := by
        simp [keeps, upd_apply]
      rw [e2]
      exact h.perm.append_right _
  have hself : ∀ x : Option Err, (upd s.aw a (some { push := p, ex := x : Aw }) a).isSome = true :=
    fun x => by simp [upd_apply]
  revert hu
  unfold St.await
  dsimp only
  split
  · exact fun hu => (key none).resumeAw (hself none) hu
  · split
    · intro hu
      have e : upd (upd s.aw a (some { push := p : Aw })) a (some { push := p, ex := some .alreadyAwaited }) =
          upd s.aw a (some { push := p, ex := some .alreadyAwaited }) := by
        funext b; simp only [upd_apply]; split <;> rfl
      rw [e] at hu ⊢
      exact (key (some .alreadyAwaited)).resumeAw (hself _) hu
    · have k0 : AI (es ++ [.await a p]) { s with aw := upd s.aw a (some { push := p }), awaited := some a } :=
        (key none).same rfl rfl (fun b hb => by cases hb; exact hself none)
      by_cases hc : s.lazy = true ∧ s.pushed = none
      · rw [if_pos hc]
        have k : AI (es ++ [.await a p]) { s with
            pushed := some p, awaited := some a
            aw := upd (upd s.aw a (some { push := p : Aw })) a (some { push := p, toPush := false }) } :=
          k0.hand (w := { push := p }) (a := a) rfl hc.2 rfl (by simp [upd_apply]) rfl rfl rfl
            (fun b hb => Or.inl (by cases hb; rfl))
        split
        · exact fun hu => k.bodyResume hu
        · exact fun _ => k
      · rw [if_neg hc]
        split
        · exact fun hu => k0.bodyResume hu
        · exact fun _ => k0

theorem AI.step {es : List Ev} {s : St} (h : AI es s) (h0 : s.ub = false) (e : Ev) (hc : s.can e = true)
    (hu : (s.step e).ub = false) : AI (es ++ [e]) (s.step e) := by
  rw [step_can h0 hc] at hu ⊢
  cases e
  case initial =>
    refine AI.more ?_ _ (by simp [awaits_snoc])
    revert hu; dsimp only; split
    · have h' : AI es { s with lazy := true } := h.same rfl rfl h.waits
      exact h'.suspend
    · exact h.suspend
  case yield v =>
    refine AI.more ?_ _ (by simp [awaits_snoc])
    revert hu; dsimp only; split
    · split
      · exact fun _ => h.put v
      · exact (h.put v).suspend
    · exact h.suspend
  case ret v =>
    refine AI.more ?_ _ (by simp [awaits_snoc])
    revert hu; dsimp only; split
    · split
      · exact fun _ => h.put v
      · exact (h.put v).finish
    · exact fun _ => h.same rfl rfl h.waits
  case throw x =>
    refine AI.more ?_ _ (by simp [awaits_snoc])
    revert hu; dsimp only; split
    · have h' : AI es { s with exc := some (.user x) } := h.same rfl rfl h.waits
      exact h'.finish
    · exact fun _ => h.same rfl rfl h.waits
  case kill =>
    refine AI.more ?_ _ (by simp [awaits_snoc])
    unfold St.kill; dsimp only; split
    · exact h.same rfl rfl (by simp)
    · exact h.same rfl rfl h.waits
  case run =>
    refine AI.more ?_ _ (by simp [awaits_snoc])
    revert hu; dsimp only; split
    · exact h.bodyResume
    · exact fun _ => h.same rfl rfl h.waits
  case await a p =>
    have ha : s.aw a = none := by simp only [St.can, Bool.and_eq_true] at hc; simpa using hc.2
    exact h.await ha hu
  case interrupt a => exact AI.more (h.interrupt a hu) _ (by simp [awaits_snoc])
  case get a =>
    have ha : s.aw a = none := by simp only [St.can, Bool.and_eq_true] at hc; simpa using hc.2
    exact AI.more (h.get ha hu) _ (by simp [awaits_snoc])
  case drop =>
    refine AI.more ?_ _ (by simp [awaits_snoc])
    exact h.same rfl rfl (by simp [St.drop])

theorem AI.steps (es' : List Ev) : ∀ {es : List Ev} {s : St}, AI es s → Legal s es' →
    (s.steps es').ub = false → AI (es ++ es') (s.steps es') := by
  induction es' with
  | nil => intro es s h _ _; simpa [St.steps] using h
  | cons e es' ih =>
    intro es s h hl hu
    have hu' : ((s.step e).steps es').ub = false := hu
    have h0 : s.ub = false := steps_ub_false (e :: es') hu
    have := ih (h.step h0 e hl.1 (steps_ub_false _ hu')) hl.2 hu'
    simpa [St.steps] using this

end Cobalt.Gen
