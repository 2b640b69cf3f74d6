import Verif.Disp.Chan3
/-! The invariant of the dispatcher. -/
namespace Cobalt.Disp
open Cobalt.Comb (Out)
open Cobalt.Chan (Obs Tok delivered)

/-- What has been read is what the loop was given, in order, and `k` values more (`off` of them not read yet). -/
structure D (out : List Res) (dl : List Nat) (k off : Nat) : Prop where
  sl : List.Sublist (subs out) dl
  len : dl.length + off = (subs out).length + k
  nof : Res.failed ∉ out

@[simp] theorem msgs_msg (out : List Res) (m : Nat) : msgs (out ++ [.msg m]) = msgs out ++ [m] := by simp [msgs]
@[simp] theorem msgs_sub (out : List Res) (w : Nat) : msgs (out ++ [.sub w]) = msgs out := by simp [msgs]
@[simp] theorem subs_msg (out : List Res) (m : Nat) : subs (out ++ [.msg m]) = subs out := by simp [subs]
@[simp] theorem subs_sub (out : List Res) (w : Nat) : subs (out ++ [.sub w]) = subs out ++ [w] := by simp [subs]

theorem D.msg {out : List Res} {dl : List Nat} {k off m : Nat} (h : D out dl k off) : D (out ++ [.msg m]) dl k off := by
  obtain ⟨h1, h2, h3⟩ := h
  exact ⟨by simpa using h1, by simpa using h2, by simpa using h3⟩

theorem D.sub {out : List Res} {dl : List Nat} {k off v : Nat} (h : D out dl k off) :
    D (out ++ [.sub v]) (dl ++ [v]) k off := by
  obtain ⟨h1, h2, h3⟩ := h
  refine ⟨by rw [subs_sub]; exact h1.append (List.Sublist.refl _), ?_, by simpa using h3⟩
  simp only [subs_sub, List.length_append, List.length_singleton]
  omega

/-- The loop is between two rounds. -/
structure Idle (s : St) (k : Nat) : Prop where
  race : s.race = none
  ci : CI s.ch
  free : Free s.ch
  gen : ∃ res, GI s.gen none res ∧ s.yields = msgs s.out ++ res.toList
  d : D s.out (delivered s.ch.log) k 0

/-- It awaits both. -/
structure Both (s : St) (k : Nat) (c : Prop) (swap : Bool) (cs : Comb.St) : Prop where
  race : s.race = some (swap, cs)
  a : A cs
  ci : CI s.ch
  ph : Queued s.ch s.rd ∨ ∃ dir, Post s.ch s.rd dir false ∧ (dir ≠ none → c)
  gen : GI s.gen (some s.round) none
  y : s.yields = msgs s.out
  d : D s.out (delivered s.ch.log) k 0

/-- The message `m` has won, the read has not ended yet. -/
structure Won (s : St) (k : Nat) (swap : Bool) (cs : Comb.St) (m : Nat) : Prop where
  race : s.race = some (swap, cs)
  w : W m cs
  ci : CI s.ch
  gen : ∃ res, GI s.gen none res ∧ s.yields = msgs s.out ++ [m] ++ res.toList
  ph : (Post s.ch s.rd none true ∧ D s.out (delivered s.ch.log) k 0) ∨
    (∃ w, Post s.ch s.rd (some w) false ∧ D s.out (delivered s.ch.log) k 1)

/-- `k` subscriptions were stolen; if the read has been handed a value, `c`. -/
def Inv (s : St) (k : Nat) (c : Prop) : Prop :=
  Idle s k ∨ (∃ swap cs, Both s k c swap cs) ∨ ∃ swap cs m, Won s k swap cs m

theorem Inv.init (cap : Nat) : Inv { ch := Chan.St.init cap } 0 False := by
  refine Or.inl ⟨rfl, CI.init cap, Free.init cap, ⟨none, GI.init, rfl⟩, ?_⟩
  constructor <;> simp [subs, Chan.St.init, delivered]

theorem Post.none {ch : Chan.St} {rd : Nat} {d : Option Nat} {c : Bool} (h : CI ch) (p : Post ch rd d c) :
    readOut ch rd = none := readOut_none h (by simp [p.susp]) (by simp [p.susp])

theorem Queued.none {ch : Chan.St} {rd : Nat} (h : CI ch) (p : Queued ch rd) :
    readOut ch rd = none := readOut_none h (by simp [p.susp]) (by simp [p.susp])

theorem chan_idle {s : St} {ch : Chan.St} (h : s.race = none) : s.chan ch = { s with ch := ch } := by
  simp [St.chan, h]

theorem chan_none {s : St} {ch : Chan.St} {swap : Bool} {cs : Comb.St} (h : s.race = some (swap, cs))
    (hn : readOut ch s.rd = none) : s.chan ch = { s with ch := ch } := by
  simp [St.chan, h, hn]

theorem chan_some {s : St} {ch : Chan.St} {swap : Bool} {cs : Comb.St} {o : Out} (h : s.race = some (swap, cs))
    (hc : cs.child 1 = .waiting) (hn : readOut ch s.rd = some o) :
    s.chan ch = St.feed false swap { s with ch := ch } cs (.fin 1 o) := by
  simp [St.chan, h, hn, hc]

/-- The loop awaits the next race. -/
theorem Idle.go {s : St} {k : Nat} {c : Prop} (h : Idle s k) (swap d : Bool) :
    Inv (s.step (.go swap d)) (k + if Steals s (.go swap d) then 1 else 0) (c ∨ Busy s (.go swap d)) := by
  obtain ⟨hr, hc, hf, ⟨res, hg, hy⟩, hd⟩ := h
  obtain ⟨c1, n, l1, b1, w1⟩ := hc.mkR hf
  rw [← l1] at hd
  have hrd : ∀ b, s.ch.buf = b → (s.ch.step .mkR).readReady = decide (b ≠ []) := by
    intro b hb; simp [Chan.St.readReady, b1, c1.opn, hb]
  simp only [St.step, hr]
  let s1 : St := { s with race := none, round := s.round + 1, rd := s.ch.nextR, ch := s.ch.step .mkR }
  have hst : ¬ (s.ch.buf = [] ∧ s.ch.wq ≠ [] ∧ swap = true ∧ res ≠ none) → ¬ Steals s (.go swap d) := by
    intro h1 ⟨_, h2, h3, h4, h5⟩
    exact h1 ⟨h4, h5, h2, by intro h6; rw [h6] at hg; simp [hg.result] at h3⟩
  show Inv (St.feed d swap s1 {} .begin) _ _
  have both : s.ch.buf = [] → res = none → Inv (St.feed d swap s1 {} .begin) (k + if Steals s (.go swap d) then 1 else 0)
      (c ∨ Busy s (.go swap d)) := by
    intro hb hn
    subst hn
    rw [if_neg (hst (by simp))]
    obtain ⟨g1, g2⟩ := hg.wait (s.round + 1)
    obtain ⟨cs, ha, e⟩ := goBoth (s := s1) d swap (by simpa using hrd [] hb) g2
    rw [e]
    refine Or.inr (Or.inl ⟨swap, cs, ?_⟩)
    cases hq : s.ch.wq with
    | nil =>
      obtain ⟨q1, q2, q3⟩ := c1.queue n (by rw [b1, hb]) (by rw [w1, hq])
      exact ⟨rfl, ha, q1, Or.inl q2, g1, by simpa using hy, by show D _ (delivered (Chan.St.step _ _).log) _ _; rw [q3]; exact hd⟩
    | cons w rest =>
      obtain ⟨q1, q2, q3⟩ := c1.hand n (by rw [b1, hb]) (by rw [w1, hq])
      exact ⟨rfl, ha, q1, Or.inr ⟨_, q2, fun _ => Or.inr (by simp [Busy, hq])⟩, g1, by simpa using hy, by show D _ (delivered (Chan.St.step _ _).log) _ _; rw [q3]; exact hd⟩
  cases swap with
  | false =>
    rw [if_neg (hst (by simp))]
    cases res with
    | some m =>
      obtain ⟨g1, g2⟩ := hg.ready (s.round + 1)
      rw [goGen (s := s1) d m g2]
      obtain ⟨u1, u2, u3⟩ := c1.unused n
      refine Or.inl ⟨rfl, u1, u2, ⟨none, g1, by simpa using hy⟩, ?_⟩
      show D _ (delivered (Chan.St.step _ _).log) _ _
      rw [u3]; exact hd.msg
    | none =>
      by_cases hb : s.ch.buf = []
      · have := both hb rfl
        rwa [if_neg (hst (by simp))] at this
      · obtain ⟨g1, g2⟩ := hg.wait (s.round + 1)
        obtain ⟨g3, g4⟩ := g1.int
        obtain ⟨v, t1, t2, t3, t4⟩ := c1.take n (by rw [b1]; exact hb)
        rw [goGenRead (s := s1) d v (by simpa [hb] using hrd _ rfl) g2 g4 t1]
        refine Or.inl ⟨rfl, t2, t3, ⟨none, g3, by simpa using hy⟩, ?_⟩
        show D _ (delivered (Chan.St.step _ _).log) _ _
        rw [t4]; exact hd.sub
  | true =>
    by_cases hb : s.ch.buf = []
    · cases res with
      | none => exact both hb rfl
      | some m =>
        obtain ⟨g1, g2⟩ := hg.ready (s.round + 1)
        cases hq : s.ch.wq with
        | nil =>
          rw [if_neg (hst (by simp [hq]))]
          obtain ⟨q1, q2, q3⟩ := c1.queue n (by rw [b1, hb]) (by rw [w1, hq])
          obtain ⟨i1, i2, i3, i4⟩ := q1.intQ q2
          rw [goReadGen (s := s1) d m 1 (by simpa using hrd [] hb) g2 i1]
          refine Or.inl ⟨rfl, i2, i3, ⟨none, g1, by simpa using hy⟩, ?_⟩
          show D _ (delivered (Chan.St.step _ _).log) _ _
          rw [i4, q3]; exact hd.msg
        | cons w rest =>
          rw [if_pos ⟨hr, rfl, by simp [hg.result], hb, by simp [hq]⟩]
          obtain ⟨q1, q2, q3⟩ := c1.hand n (by rw [b1, hb]) (by rw [w1, hq])
          obtain ⟨i1, i2⟩ := q1.intD q2
          obtain ⟨cs, hw, e⟩ := goReadGen' (s := s1) d m (by simpa using hrd [] hb) g2 (by
            show readOut ((Chan.St.step (s.ch.step .mkR) (.awaitR s.ch.nextR true true [])).step (.intR s.ch.nextR)) s.ch.nextR = _
            rw [i1]; exact q2.none q1)
          rw [e]
          have e2 : (Chan.St.step (Chan.St.step (s1.ch) (.awaitR s1.rd true true [])) (.intR s1.rd)).step (.cancelR s1.rd) =
            Chan.St.step s1.ch (.awaitR s1.rd true true []) := by
            show ((Chan.St.step (s.ch.step .mkR) (.awaitR s.ch.nextR true true [])).step (.intR s.ch.nextR)).step (.cancelR s.ch.nextR) = _
            rw [i1, i2]
          rw [e2]
          refine Or.inr (Or.inr ⟨true, cs, m, rfl, hw, q1, ⟨none, g1, by simpa using hy⟩, Or.inr ⟨w, q2, ?_⟩⟩)
          show D _ (delivered (Chan.St.step _ _).log) _ _
          rw [q3]
          exact ⟨hd.sl, by have := hd.len; show (delivered (s.ch.step .mkR).log).length + 1 = (subs s.out).length + (k + 1); omega, hd.nof⟩
    · rw [if_neg (hst (by simp [hb]))]
      obtain ⟨v, t1, t2, t3, t4⟩ := c1.take n (by rw [b1]; exact hb)
      rw [goRead (s := s1) d v (by simpa [hb] using hrd _ rfl) t1]
      refine Or.inl ⟨rfl, t2, t3, ⟨res, hg, by simpa using hy⟩, ?_⟩
      show D _ (delivered (Chan.St.step _ _).log) _ _
      rw [t4]; exact hd.sub

theorem Idle.other {s : St} {k : Nat} (h : Idle s k) {e : E} (he : ∀ swap d, e ≠ .go swap d) : Idle (s.step e) k := by
  obtain ⟨hr, hc, hf, ⟨res, hg, hy⟩, hd⟩ := h
  have quiet : ∀ ch, Keep s.ch ch → Idle { s with ch := ch } k := fun ch q =>
    ⟨hr, q.ci, q.free hf, ⟨res, hg, hy⟩, by show D _ (delivered ch.log) _ _; rw [q.dlv]; exact hd⟩
  cases e with
  | go swap d => exact absurd rfl (he swap d)
  | yield m =>
    by_cases hp : s.gen.phase = .running
    · obtain rfl : res = none := by
        rcases hg.ph with h1 | h1
        · exact h1.1
        · rw [h1.2.1] at hp; cases hp
      obtain ⟨g1, g2⟩ := hg.hold hp m
      simp only [St.step, hp, if_true, g2]
      exact ⟨hr, hc, hf, ⟨some m, g1, by simp_all⟩, hd⟩
    · simp only [St.step, hp, if_false]
      exact ⟨hr, hc, hf, ⟨res, hg, hy⟩, hd⟩
  | resume => exact ⟨hr, hc, hf, ⟨res, hg.run, hy⟩, hd⟩
  | sub =>
    obtain ⟨q, w1, r1, -, -⟩ := hc.mkW
    simp only [St.step, hr]
    have hq := (q.ci.put (Or.inl (by rw [r1]; exact hf.rq)) w1 (by simp [Chan.St.finds, r1, hf.rq]))
    have := quiet _ (q.trans hq)
    rwa [hr] at this
  | cancel w => exact quiet _ (hc.canW w)
  | run j =>
    simp only [St.step]
    rw [chan_idle hr]
    rcases hk : s.ch.posted[j]? with _ | t
    · rw [hc.runN hk]; exact ⟨hr, hc, hf, ⟨res, hg, hy⟩, hd⟩
    · cases t with
      | r i => exact absurd (hc.wf.rpost i (List.mem_of_getElem? hk)).1 (hf.no i)
      | w i => exact quiet _ (hc.runW hf.ok hk)

theorem Both.quiet {s : St} {k : Nat} {c : Prop} {swap : Bool} {cs : Comb.St} (h : Both s k c swap cs) {ch : Chan.St}
    (q : Keep s.ch ch) : Both { s with ch := ch } k c swap cs ∧ readOut ch s.rd = none := by
  obtain ⟨hr, ha, hc, hp, hg, hy, hd⟩ := h
  have hp' : Queued ch s.rd ∨ ∃ dir, Post ch s.rd dir false ∧ (dir ≠ none → c) := by
    rcases hp with hp | ⟨dir, hp, hi⟩
    · rcases q.que _ hp with h1 | h1
      · exact Or.inl h1
      · exact Or.inr ⟨_, h1, by simp⟩
    · exact Or.inr ⟨dir, q.post _ _ _ hp, hi⟩
  refine ⟨⟨hr, ha, q.ci, hp', hg, hy, by show D _ (delivered ch.log) _ _; rw [q.dlv]; exact hd⟩, ?_⟩
  rcases hp' with h1 | ⟨_, h1, -⟩
  · exact h1.none q.ci
  · exact h1.none q.ci

theorem Both.ok {s : St} {k : Nat} {c : Prop} {swap : Bool} {cs : Comb.St} (h : Both s k c swap cs) : Ok s.ch := by
  rcases h.ph with h1 | ⟨_, h1, -⟩
  · exact h1.ok
  · exact h1.ok

theorem Won.quiet {s : St} {k m : Nat} {swap : Bool} {cs : Comb.St} (h : Won s k swap cs m) {ch : Chan.St}
    (q : Keep s.ch ch) : Won { s with ch := ch } k swap cs m ∧ readOut ch s.rd = none := by
  obtain ⟨hr, ha, hc, hg, hp⟩ := h
  rcases hp with ⟨h1, h2⟩ | ⟨w, h1, h2⟩
  · refine ⟨⟨hr, ha, q.ci, hg, Or.inl ⟨q.post _ _ _ h1, ?_⟩⟩, (q.post _ _ _ h1).none q.ci⟩
    show D _ (delivered ch.log) _ _; rw [q.dlv]; exact h2
  · refine ⟨⟨hr, ha, q.ci, hg, Or.inr ⟨w, q.post _ _ _ h1, ?_⟩⟩, (q.post _ _ _ h1).none q.ci⟩
    show D _ (delivered ch.log) _ _; rw [q.dlv]; exact h2

theorem Won.rq {s : St} {k m : Nat} {swap : Bool} {cs : Comb.St} (h : Won s k swap cs m) : s.ch.rq = [] := by
  rcases h.ph with ⟨h1, -⟩ | ⟨w, h1, -⟩ <;> exact h1.rq

theorem Both.step {s : St} {k : Nat} {c : Prop} {swap : Bool} {cs : Comb.St} (h : Both s k c swap cs) (e : E) :
    Inv (s.step e) (k + if Steals s e then 1 else 0) c := by
  have hok := h.ok
  obtain ⟨hr, ha, hc, hp, hg, hy, hd⟩ := id h
  have keep : ∀ ch, Keep s.ch ch → Inv (s.chan ch) k c := by
    intro ch q
    obtain ⟨h1, h2⟩ := h.quiet q
    rw [chan_none hr h2]
    exact Or.inr (Or.inl ⟨swap, cs, h1⟩)
  cases e with
  | go swap d =>
    rw [if_neg (by simp [Steals, hr])]
    simp only [St.step, hr]
    exact Or.inr (Or.inl ⟨_, cs, h⟩)
  | yield m =>
    by_cases hph : s.gen.phase = .running
    · obtain ⟨g1, g2⟩ := hg.give hph m
      simp only [St.step, hph, if_true, g2, hr]
      have e0 : ∀ t : St, t = { s with gen := s.gen.step (.yield m), yields := s.yields ++ [m], race := s.race } →
          Inv (St.feed false swap t cs (.fin 0 (.ok m))) (k + if Steals s (.yield m) then 1 else 0) c := by
        rintro t rfl
        rcases hp with hp | ⟨dir, hp, hi⟩
        · obtain ⟨i1, i2, i3, i4⟩ := hc.intQ hp
          have hdn := (hc.wf.rlink s.rd (by simp [hp.rq])).1
          rw [if_neg (by simp [Steals, hdn]), fin0 ha m 1 (by exact i1)]
          refine Or.inl ⟨rfl, i2, i3, ⟨none, g1, by simp [hy]⟩, ?_⟩
          show D _ (delivered (Chan.St.step _ _).log) _ _
          rw [i4]; exact hd.msg
        · cases dir with
          | none =>
            obtain ⟨i1, i2, i3, i4⟩ := hc.intP hp
            rw [if_neg (by simp [Steals, hp.hd])]
            obtain ⟨cs', hw, e'⟩ := fin0' (swap := swap)
              (s := { s with gen := s.gen.step (.yield m), yields := s.yields ++ [m], race := s.race }) ha m i1
            rw [e']
            refine Or.inr (Or.inr ⟨swap, cs', m, rfl, hw, i2, ⟨none, g1, by simp [hy]⟩, Or.inl ⟨i3, ?_⟩⟩)
            show D _ (delivered (Chan.St.step _ _).log) _ _
            rw [i4]; exact hd
          | some w =>
            obtain ⟨i1, i2⟩ := hc.intD hp
            rw [if_pos ⟨by simp [hr], hph, by simp [hg.awaited], hp.susp, by simp [hp.hd]⟩]
            obtain ⟨cs', hw, e'⟩ := fin0' (swap := swap)
              (s := { s with gen := s.gen.step (.yield m), yields := s.yields ++ [m], race := s.race }) ha m
              (by show readOut (s.ch.step (.intR s.rd)) s.rd = _; rw [i1]; exact hp.none hc)
            rw [e']
            have e2 : (s.ch.step (.intR s.rd)).step (.cancelR s.rd) = s.ch := by rw [i1, i2]
            refine Or.inr (Or.inr ⟨swap, cs', m, rfl, hw, ?_, ⟨none, g1, by simp [hy]⟩, Or.inr ⟨w, ?_, ?_⟩⟩)
            · show CI ((s.ch.step (.intR s.rd)).step (.cancelR s.rd)); rw [e2]; exact hc
            · show Post ((s.ch.step (.intR s.rd)).step (.cancelR s.rd)) s.rd _ _; rw [e2]; exact hp
            · show D _ (delivered ((s.ch.step (.intR s.rd)).step (.cancelR s.rd)).log) _ _
              rw [e2]
              exact ⟨hd.sl, by have := hd.len; show (delivered s.ch.log).length + 1 = (subs s.out).length + (k + 1); omega, hd.nof⟩
      exact e0 _ (by rw [hr])
    · rw [if_neg (by simp [Steals, hph])]
      simp only [St.step, hph, if_false]
      exact Or.inr (Or.inl ⟨_, cs, h⟩)
  | resume =>
    rw [if_neg (by simp [Steals])]
    exact Or.inr (Or.inl ⟨_, cs, hr, ha, hc, hp, hg.run, hy, hd⟩)
  | sub =>
    rw [if_neg (by simp [Steals])]
    obtain ⟨q, w1, r1, R1, -⟩ := hc.mkW
    simp only [St.step, hr]
    split
    · rename_i hfi
      have hq : Queued s.ch s.rd := by
        rcases hp with hp | ⟨_, hp, -⟩
        · exact hp
        · simp [Chan.St.finds, r1, hp.rq] at hfi
      have hq' : Queued (s.ch.step .mkW) s.rd :=
        ⟨by rw [r1]; exact hq.rq, by rw [R1]; exact hq.only, by rw [R1]; exact hq.susp, by rw [R1]; exact hq.wait⟩
      obtain ⟨g1, g2⟩ := hg.int
      obtain ⟨cs', ht, e'⟩ := txn (swap := swap) ha g2
      obtain ⟨v, m1, m2, m3, m4⟩ := q.ci.meet hq' w1 hfi
      rw [e']
      dsimp only
      rw [chan_some (s := { s with gen := s.gen.interrupt s.round, race := some (swap, cs') }) (swap := swap) (cs := cs') rfl ht.c1 m1,
        txn1 ht v]
      refine Or.inl ⟨rfl, m2, m3, ⟨none, g1, by simpa using hy⟩, ?_⟩
      show D _ (delivered (Chan.St.step _ _).log) _ _
      rw [m4, q.dlv]; exact hd.sub
    · rename_i hfi
      have hn : (s.ch.step .mkW).finds (.awaitW s.ch.nextW true false []) = none := by
        rcases hp with hp | ⟨_, hp, -⟩
        · rcases hx : (s.ch.step .mkW).finds (.awaitW s.ch.nextW true false []) with _ | x
          · rfl
          · simp only [Chan.St.finds, r1, hp.rq] at hx
            split at hx
            · simp at hx; exfalso; apply hfi; simp [Chan.St.finds, r1, hp.rq]; simpa using ‹_ ∧ _ ∧ _›
            · cases hx
        · simp [Chan.St.finds, r1, hp.rq]
      have ho : Ok (s.ch.step .mkW) := by
        unfold Ok; rw [r1, R1]; exact hok
      exact keep _ (q.trans (q.ci.put ho w1 hn))
  | cancel w =>
    rw [if_neg (by simp [Steals])]
    exact Or.inr (Or.inl ⟨swap, cs, (h.quiet (hc.canW w)).1⟩)
  | run j =>
    rw [if_neg (by simp [Steals])]
    simp only [St.step]
    rcases hk : s.ch.posted[j]? with _ | t
    · rw [hc.runN hk, chan_none hr (by
        rcases hp with hp | ⟨_, hp, -⟩
        · exact hp.none hc
        · exact hp.none hc)]
      exact Or.inr (Or.inl ⟨swap, cs, h⟩)
    · cases t with
      | w i => exact keep _ (hc.runW hok hk)
      | r i =>
        rcases hp with hp | ⟨dir, hp, hi⟩
        · have h1 := hc.wf.rpost i (List.mem_of_getElem? hk)
          have := hp.only i h1.1
          subst this
          exact absurd h1.2.1 (by simp [hp.wait])
        · obtain ⟨v, m1, m2, m3, m4⟩ := hc.runV hp hk
          obtain ⟨g1, g2⟩ := hg.int
          rw [chan_some hr ha.c1 m1, fin1 ha v (e := 0) (by exact g2)]
          refine Or.inl ⟨rfl, m2, m3, ⟨none, g1, by simpa using hy⟩, ?_⟩
          show D _ (delivered (Chan.St.step _ _).log) _ _
          rw [m4]; exact hd.sub

theorem Won.step {s : St} {k m : Nat} {c : Prop} {swap : Bool} {cs : Comb.St} (h : Won s k swap cs m) (e : E) :
    Inv (s.step e) (k + if Steals s e then 1 else 0) c := by
  have hrq := h.rq
  obtain ⟨hr, ha, hc, ⟨res, hg, hy⟩, hp⟩ := id h
  have hs : ¬ Steals s e := by
    cases e <;> simp [Steals, hr, hg.awaited]
  rw [if_neg hs]
  have keep : ∀ ch, Keep s.ch ch → Inv (s.chan ch) k c := by
    intro ch q
    obtain ⟨h1, h2⟩ := h.quiet q
    rw [chan_none hr h2]
    exact Or.inr (Or.inr ⟨swap, cs, m, h1⟩)
  cases e with
  | go swap d =>
    simp only [St.step, hr]
    exact Or.inr (Or.inr ⟨_, cs, m, h⟩)
  | yield m' =>
    by_cases hph : s.gen.phase = .running
    · obtain rfl : res = none := by
        rcases hg.ph with h1 | h1
        · exact h1.1
        · rw [h1.2.1] at hph; cases hph
      obtain ⟨g1, g2⟩ := hg.hold hph m'
      simp only [St.step, hph, if_true, g2]
      exact Or.inr (Or.inr ⟨swap, cs, m, hr, ha, hc, ⟨some m', g1, by simp_all⟩, hp⟩)
    · simp only [St.step, hph, if_false]
      exact Or.inr (Or.inr ⟨_, cs, m, h⟩)
  | resume => exact Or.inr (Or.inr ⟨_, cs, m, hr, ha, hc, ⟨res, hg.run, hy⟩, hp⟩)
  | sub =>
    obtain ⟨q, w1, r1, R1, -⟩ := hc.mkW
    simp only [St.step, hr]
    have hn : (s.ch.step .mkW).finds (.awaitW s.ch.nextW true false []) = none := by simp [Chan.St.finds, r1, hrq]
    rw [if_neg (by rw [hn]; simp)]
    exact keep _ (q.trans (q.ci.put (Or.inl (by rw [r1]; exact hrq)) w1 hn))
  | cancel w => exact Or.inr (Or.inr ⟨swap, cs, m, (h.quiet (hc.canW w)).1⟩)
  | run j =>
    simp only [St.step]
    rcases hk : s.ch.posted[j]? with _ | t
    · rw [hc.runN hk, chan_none hr (by
        rcases hp with ⟨hp, -⟩ | ⟨_, hp, -⟩
        · exact hp.none hc
        · exact hp.none hc)]
      exact Or.inr (Or.inr ⟨swap, cs, m, h⟩)
    · cases t with
      | w i => exact keep _ (hc.runW (Or.inl hrq) hk)
      | r i =>
        rcases hp with ⟨hp, hd⟩ | ⟨w, hp, hd⟩
        · obtain ⟨m1, m2, m3, m4⟩ := hc.runC hp hk
          rw [chan_some hr ha.c1 m1, end0 ha]
          refine Or.inl ⟨rfl, m2, m3, ⟨res, hg, by simpa using hy⟩, ?_⟩
          show D _ (delivered (Chan.St.step _ _).log) _ _
          rw [m4]; exact hd.msg
        · obtain ⟨v, m1, m2, m3, m4⟩ := hc.runV hp hk
          rw [chan_some hr ha.c1 m1, end0 ha]
          refine Or.inl ⟨rfl, m2, m3, ⟨res, hg, by simpa using hy⟩, ?_⟩
          show D _ (delivered (Chan.St.step _ _).log) _ _
          rw [m4]
          refine ⟨?_, ?_, ?_⟩
          · simp only [subs_msg]; exact hd.sl.trans (List.sublist_append_left _ _)
          · simpa using hd.len
          · simpa using hd.nof

theorem Inv.mono {s : St} {k : Nat} {c c' : Prop} (h : Inv s k c) (hc : c → c') : Inv s k c' := by
  rcases h with h | ⟨swap, cs, h⟩ | h
  · exact Or.inl h
  · refine Or.inr (Or.inl ⟨swap, cs, h.race, h.a, h.ci, ?_, h.gen, h.y, h.d⟩)
    rcases h.ph with h1 | ⟨dir, h1, h2⟩
    · exact Or.inl h1
    · exact Or.inr ⟨dir, h1, fun hd => hc (h2 hd)⟩
  · exact Or.inr (Or.inr h)

theorem Inv.step {s : St} {k : Nat} {c : Prop} (h : Inv s k c) (e : E) :
    Inv (s.step e) (k + if Steals s e then 1 else 0) (c ∨ Busy s e) := by
  rcases h with h | ⟨swap, cs, h⟩ | ⟨swap, cs, m, h⟩
  · by_cases hg : ∃ swap d, e = .go swap d
    · obtain ⟨swap, d, rfl⟩ := hg
      exact h.go swap d
    · have hs : ¬ Steals s e := by
        cases e with
        | go swap d => exact absurd ⟨swap, d, rfl⟩ hg
        | yield m => simp [Steals, h.race]
        | _ => simp [Steals]
      rw [if_neg hs]
      exact Or.inl (h.other fun swap d he => hg ⟨swap, d, he⟩)
  · exact (h.step e).mono Or.inl
  · exact h.step e

/-- A subscription is stolen only if the race was awaited while a session waited. -/
theorem Inv.steals {s : St} {k : Nat} {c : Prop} (h : Inv s k c) {e : E} (hs : Steals s e) : c ∨ Busy s e := by
  cases e with
  | go swap d => exact Or.inr hs.2.2.2.2
  | yield m =>
    obtain ⟨h1, h2, h3, h4, h5⟩ := hs
    rcases h with h | ⟨swap, cs, h⟩ | ⟨swap, cs, m, h⟩
    · simp [h.race] at h1
    · rcases h.ph with hq | ⟨dir, hp, hi⟩
      · have := (h.ci.wf.rlink s.rd (by simp [hq.rq])).1
        simp [this] at h5
      · rw [hp.hd] at h5
        exact Or.inl (hi (by intro h6; simp [h6] at h5))
    · obtain ⟨res, hg, -⟩ := h.gen
      simp [hg.awaited] at h3
  | _ => exact hs.elim

theorem Inv.run {s : St} {k : Nat} {c : Prop} (h : Inv s k c) (es : List E) :
    ∃ c', Inv (es.foldl St.step s) (k + stolen s es) c' := by
  induction es generalizing s k c with
  | nil => exact ⟨c, h⟩
  | cons e es ih =>
    obtain ⟨c', h'⟩ := ih (h.step e)
    exact ⟨c', by simpa [stolen, Nat.add_assoc] using h'⟩

theorem Inv.calm {s : St} {k : Nat} (h : Inv s k False) (es : List E) (hc : Calm s es) : stolen s es = 0 := by
  induction es generalizing s k with
  | nil => rfl
  | cons e es ih =>
    have hn : ¬ Steals s e := fun hs => (h.steals hs).elim id hc.1
    rw [stolen, if_neg hn, Nat.zero_add]
    exact ih ((h.step e).mono fun hx => hx.elim id hc.1) hc.2

theorem Inv.exec (cap : Nat) (es : List E) : ∃ c, Inv (St.exec cap es) (stolen { ch := Chan.St.init cap } es) c := by
  obtain ⟨c, h⟩ := (Inv.init cap).run es
  exact ⟨c, by rw [Nat.zero_add] at h; exact h⟩

end Cobalt.Disp
