import Verif.Resv.Hist
/-! # Properties of name resolution -/
namespace Cobalt.Resv

theorem ub_first {v : Nat → Nat} {es : List Ev} (h : run v es = .ub) :
    ∃ a i b t, es = a ++ .await i :: b ∧ run v a = .ok t ∧ t.step (.await i) = .ub := by
  suffices H : ∀ (b pre : List Ev) (s : St), run v pre = .ok s →
      b.foldl Res.step (.ok s) = .ub →
      ∃ a i c t, pre ++ b = a ++ .await i :: c ∧ run v a = .ok t ∧ t.step (.await i) = .ub by
    simpa using H es [] (init v) rfl h
  intro b
  induction b with
  | nil => intro pre s _ h; cases h
  | cons e b ih =>
    intro pre s hp h
    rw [List.foldl_cons] at h
    change b.foldl Res.step (s.step e) = _ at h
    cases hs : s.step e with
    | stuck => rw [hs, fold_stuck] at h; cases h
    | ok t =>
      rw [hs] at h
      have := ih (pre ++ [e]) t (by rw [run_snoc, hp]; exact hs) h
      simpa using this
    | ub =>
      cases e with
      | await i => exact ⟨pre, i, b, s, rfl, hp, hs⟩
      | signal _ => cases hs
      | _ =>
        exfalso
        dsimp only [St.step] at hs
        repeat' split at hs
        all_goals cases hs

theorem await_ub {s : St} {i : Nat} (e : s.step (.await i) = .ub) : ∃ r h w, s.ph i = .made r h w ∧
    (s.has r = false ∨ s.cell h = none ∨ s.cell w = none) := by
  dsimp only [St.step] at e
  split at e
  · rename_i r h w hp
    refine ⟨r, h, w, hp, ?_⟩
    rcases initiate_cases s i r h w with ⟨_, h⟩ | ⟨s', h⟩
    · exact h
    · rw [h] at e; cases e
  · cases e

theorem has_false {v : Nat → Nat} {es : List Ev} {s : St} (g : Inv1 v es s) (r : Option Nat) :
    s.has r = false ↔ ∃ k, r = some k ∧ .drop k ∈ es := by
  cases r with
  | none => simp [St.has]
  | some k => simp [St.has, g.hgone]

/-- Undefined behaviour is exactly a text or a resolver that is gone between the call of `resolve`
and its `co_await`. -/
theorem C122_ub (v : Nat → Nat) (es : List Ev) (hs : run v es ≠ .stuck) :
    run v es = .ub ↔ Dangles es := by
  constructor
  · intro h
    obtain ⟨a, i, b, t, rfl, ha, hu⟩ := ub_first h
    obtain ⟨r, hh, w, hp, hb⟩ := await_ub hu
    obtain ⟨g1, g2⟩ := run_inv ha
    obtain ⟨p, m, rfl⟩ := g2.made _ _ _ _ hp
    refine ⟨p, i, r, hh, w, m, b, by simp, ?_⟩
    obtain ⟨t', ht'⟩ := run_prefix (a := p ++ [.make i r hh w]) (b := m) (by simpa using ha)
    obtain ⟨t0, h0⟩ := run_prefix ht'
    rw [run_snoc, h0] at ht'
    obtain ⟨⟨-, k1, k2, k3⟩, -⟩ := make_ok ht'
    obtain ⟨f1, f2⟩ := run_inv h0
    rcases hb with hb | hb | hb
    · right; right
      obtain ⟨k, rfl, hk⟩ := (has_false g1 r).1 hb
      refine ⟨k, rfl, ?_⟩
      have : .drop k ∉ p := fun hc => by
        have := (has_false f1 (some k)).2 ⟨k, rfl, hc⟩
        rw [this] at k1; cases k1
      simpa [this] using hk
    · left
      have hb := (g1.hcell _).1 hb
      have : .free hh ∉ p := fun hc => k2 ((f1.hcell _).2 hc)
      simpa [this] using hb
    · right; left
      have hb := (g1.hcell _).1 hb
      have : .free w ∉ p := fun hc => k3 ((f1.hcell _).2 hc)
      simpa [this] using hb
  · rintro ⟨p, i, r, hh, w, m, b, rfl, hd⟩
    cases h : run v (p ++ .make i r hh w :: (m ++ .await i :: b)) with
    | stuck => exact absurd h hs
    | ub => rfl
    | ok s =>
      exfalso
      obtain ⟨t', ht'⟩ := run_prefix (a := (p ++ .make i r hh w :: m) ++ [.await i]) (b := b)
        (by simpa using h)
      obtain ⟨t, ht⟩ := run_prefix ht'
      rw [run_snoc, ht] at ht'
      obtain ⟨r', h', w', x, y, e1, e2, e3, e4, -⟩ := await_ok ht'
      obtain ⟨g1, g2⟩ := run_inv ht
      obtain ⟨p', m', hpm⟩ := g2.made _ _ _ _ e1
      obtain ⟨rfl, rfl, rfl⟩ := g2.uniq i r' h' w' r hh w (by rw [hpm]; simp) (by simp)
      rcases hd with hd | hd | ⟨k, rfl, hd⟩
      · have := (g1.hcell h').2 (by simp [hd])
        rw [this] at e3; cases e3
      · have := (g1.hcell w').2 (by simp [hd])
        rw [this] at e4; cases e4
      · have := (has_false g1 (some k)).2 ⟨k, rfl, by simp [hd]⟩
        rw [this] at e2; cases e2

/-- `auto op = r.resolve(std::string("…"), "80"); co_await op;` -/
example : Dangles [.make 0 (some 0) 0 1, .free 0, .await 0] :=
  ⟨[], 0, some 0, 0, 1, [.free 0], [], rfl, Or.inl (by simp)⟩

theorem split_start : ∀ {b b' c c' : List Ev}, b ++ Ev.start :: c = b' ++ Ev.start :: c' →
    starts b = starts b' → b = b'
  | [], [], _, _, _, _ => rfl
  | [], y :: _, _, _, h, h2 => by
    simp at h
    rw [← h.1] at h2
    simp only [starts, List.countP_cons, Ev.isStart, List.countP_nil, if_pos] at h2
    omega
  | y :: _, [], _, _, h, h2 => by
    simp at h
    rw [h.1] at h2
    simp only [starts, List.countP_cons, Ev.isStart, List.countP_nil, if_pos] at h2
    omega
  | y :: b, z :: b', c, c', h, h2 => by
    simp at h
    obtain ⟨rfl, h⟩ := h
    rw [split_start h]
    simp only [starts, List.countP_cons] at h2 ⊢
    omega

theorem Answer.unique {v : Nat → Nat} {es : List Ev} {s : St} (g : Inv2 v es s) {i : Nat}
    {o o' : Out} (h : Answer v es i o) (h' : Answer v es i o') : o = o' := by
  obtain ⟨a, r, hh, w, b, c, e1, m1, n1, k1⟩ := h
  obtain ⟨a', r', h', w', b', c', e2, m2, n2, k2⟩ := h'
  have hn : ∀ {a b}, es = a ++ .await i :: b → Ev.await i ∉ a := by
    intro a b he hc
    have hnd := g.nd
    have e : awaits es = awaits a ++ i :: awaits b := by
      rw [he, awaits_append]; simp [awaits, Ev.awaited]
    rw [e] at hnd
    exact (List.nodup_append.1 hnd).2.2 i ((mem_awaits _ _).2 hc) i (by simp) rfl
  obtain ⟨rfl, hb⟩ := split_unique (e1.symm.trans e2) (hn e1) (hn e2)
  obtain rfl : b = b' := split_start hb (by omega)
  obtain ⟨rfl, rfl, rfl⟩ := g.uniq i r hh w r' h' w' (by rw [e1]; simp [m1]) (by rw [e1]; simp [m2])
  rcases k1 with ⟨k1, rfl⟩ | ⟨k1, rfl⟩ <;> rcases k2 with ⟨k2, rfl⟩ | ⟨k2, rfl⟩
  · rfl
  · exact absurd k1 k2
  · exact absurd k2 k1
  · rfl

/-- The results come in the order of the `co_await`s, whichever resolvers they are of: a query is
behind all that came before it. -/
theorem C122_order (v : Nat → Nat) (es : List Ev) (s : St) (h : run v es = .ok s) :
    s.told.map Prod.fst = (awaits es).take (resumes es) ∧ resumes es ≤ finishes es ∧
      finishes es ≤ starts es ∧ starts es ≤ finishes es + 1 ∧ starts es ≤ (awaits es).length := by
  obtain ⟨g, -⟩ := run_inv h
  have h1 := g.n1
  have h2 := g.n2
  have h3 := g.n3
  have h4 : s.busy.toList.length ≤ 1 := by cases s.busy <;> simp
  have h5 := congrArg List.length g.order
  simp only [List.length_append, List.length_map] at h5
  refine ⟨?_, by omega, by omega, by omega, by omega⟩
  rw [← g.order, ← h1]
  simp

/-- What a `co_await` gives: the query is aborted if its resolver was cancelled or destroyed after
the `co_await` and before the thread took it, that is before as many queries were taken as came
before; otherwise the endpoints of the texts as they were at the `co_await`. -/
theorem C122_exact (v : Nat → Nat) (es : List Ev) (s : St) (h : run v es = .ok s) (i : Nat)
    (o : Out) :
    (i, o) ∈ s.told ↔ i ∈ (awaits es).take (resumes es) ∧ Answer v es i o := by
  obtain ⟨g1, g2⟩ := run_inv h
  have ho := (C122_order v es s h).1
  constructor
  · intro hm
    exact ⟨by rw [← ho]; exact List.mem_map.2 ⟨_, hm, rfl⟩, g2.out _ _ (g2.tld _ _ hm)⟩
  · rintro ⟨hm, ha⟩
    rw [← ho] at hm
    obtain ⟨⟨j, o'⟩, hj, rfl⟩ := List.mem_map.1 hm
    rw [Answer.unique g2 ha (g2.out _ _ (g2.tld _ _ hj))]
    exact hj

/-- What the thread and the executor do. -/
def Ev.works (e : Ev) : Prop := e = .start ∨ e = .finish ∨ e = .resume

theorem works_on {v : Nat → Nat} : ∀ (n : Nat) (es : List Ev) (s : St), run v es = .ok s →
    3 * s.queue.length + 2 * s.busy.toList.length + s.posted.length = n →
    ∃ d s', run v (es ++ d) = .ok s' ∧ (∀ e ∈ d, e.works) ∧ d.length = n ∧ s'.queue = [] ∧
      s'.busy = none ∧ s'.posted = [] ∧ awaits d = []
  | 0, es, s, h, hn => by
    refine ⟨[], s, by simpa using h, by simp, rfl, ?_, ?_, ?_, rfl⟩
    · exact List.length_eq_zero_iff.1 (by omega)
    · cases hb : s.busy with
      | none => rfl
      | some i => rw [hb] at hn; simp at hn
    · exact List.length_eq_zero_iff.1 (by omega)
  | n + 1, es, s, h, hn => by
    obtain ⟨g1, g2⟩ := run_inv h
    suffices H : ∃ e t, e.works ∧ e.awaited = none ∧ s.step e = .ok t ∧
        3 * t.queue.length + 2 * t.busy.toList.length + t.posted.length = n by
      obtain ⟨e, t, he, ha, ht, hm⟩ := H
      obtain ⟨d, s', r1, r2, r3, r4, r5, r6, r7⟩ :=
        works_on n (es ++ [e]) t (by rw [run_snoc, h]; exact ht) hm
      refine ⟨e :: d, s', by simpa using r1, ?_, by simp [r3], r4, r5, r6, ?_⟩
      · intro x hx
        rcases List.mem_cons.1 hx with rfl | hx
        · exact he
        · exact r2 x hx
      · simp only [awaits, List.filterMap_cons, ha]; exact r7
    cases hp : s.posted with
    | cons i q =>
      obtain ⟨o, ho⟩ := g2.inp i (by simp [hp])
      refine ⟨.resume, { s with posted := q, told := s.told ++ [(i, o)] }, Or.inr (Or.inr rfl), rfl,
        by simp only [St.step, hp, ho], ?_⟩
      rw [hp] at hn
      simp at hn ⊢; omega
    | nil =>
      cases hb : s.busy with
      | some i =>
        refine ⟨.finish, { s with busy := none, posted := s.posted ++ [i] }, Or.inr (Or.inl rfl), rfl,
          by simp only [St.step, hb], ?_⟩
        rw [hb, hp] at hn
        simp [hp] at hn ⊢; omega
      | none =>
        cases hq : s.queue with
        | nil => rw [hb, hp, hq] at hn; simp at hn
        | cons i q =>
          obtain ⟨r, t, x, y, ho⟩ := g2.inq i (by simp [hq])
          refine ⟨.start, { s with
            busy := some i, queue := q, ph := upd s.ph i (.out (s.take r t x y)) }, Or.inl rfl, rfl,
            by simp only [St.step, hb, hq, ho], ?_⟩
          rw [hb, hp, hq] at hn
          simp [hp] at hn ⊢; omega

/-- Every `co_await` ends, after three events for every query, of the thread or the executor. -/
theorem C122_ends (v : Nat → Nat) (es : List Ev) (s : St) (h : run v es = .ok s) :
    ∃ d s', run v (es ++ d) = .ok s' ∧ (∀ e ∈ d, e.works) ∧ s'.told.map Prod.fst = awaits es ∧
      d.length + starts es + finishes es + resumes es = 3 * (awaits es).length := by
  obtain ⟨g1, -⟩ := run_inv h
  obtain ⟨d, s', r1, r2, r3, r4, r5, r6, r7⟩ := works_on _ es s h rfl
  refine ⟨d, s', r1, r2, ?_, ?_⟩
  · have := (run_inv r1).1.order
    rw [r4, r5, r6, awaits_append, r7] at this
    simpa using this
  · have h1 := g1.n1
    have h2 := g1.n2
    have h3 := g1.n3
    have h5 := congrArg List.length g1.order
    simp only [List.length_append, List.length_map] at h5
    omega

/-- two lookups, the first one under way -/
def two : List Ev := [.make 0 none 0 1, .await 0, .make 1 (some 0) 2 1, .await 1, .start]

example : ∃ s, run id two = .ok s ∧ s.queue = [1] ∧ s.busy = some 0 := ⟨_, rfl, rfl, rfl⟩

def Ev.isSignal : Ev → Bool
  | .signal _ => true
  | _ => false

/-- The cancellation of a coroutine that awaits a name has no effect at all. -/
theorem C122_deaf (v : Nat → Nat) (es : List Ev) :
    run v (es.filter fun e => !e.isSignal) = run v es := by
  suffices H : ∀ (es : List Ev) (x : Res),
      (es.filter fun e => !e.isSignal).foldl Res.step x = es.foldl Res.step x from H es _
  intro es
  induction es with
  | nil => intro x; rfl
  | cons e es ih =>
    intro x
    cases e with
    | signal i =>
      have : Res.step x (.signal i) = x := by cases x <;> rfl
      simp only [List.filter_cons, Ev.isSignal, List.foldl_cons, this]
      exact ih x
    | _ => simp only [List.filter_cons, Ev.isSignal, List.foldl_cons]; exact ih _

/-- A temporary string in the call and the `co_await` in another statement. -/
theorem C122_violated (v : Nat → Nat) : run v [.make 0 (some 0) 0 1, .free 0, .await 0] = .ub := rfl

/-- Another text between the call and the `co_await`: the other name is looked up. -/
theorem C122_text_violated (v : Nat → Nat) (x : Nat) (hx : x ≠ v 0) :
    ∃ s, run v [.make 0 (some 0) 0 1, .set 0 x, .await 0, .start, .finish, .resume] = .ok s ∧
      s.told = [(0, .found x (v 1))] ∧ .found x (v 1) ≠ Out.found (v 0) (v 1) :=
  ⟨_, rfl, rfl, by simpa using hx⟩

/-- The coroutine is cancelled while its query is still in the queue, and gets the endpoints. -/
theorem C122_deaf_violated (v : Nat → Nat) :
    ∃ s, run v [.make 0 none 0 1, .await 0, .signal 0, .start, .finish, .resume] = .ok s ∧
      s.told = [(0, .found (v 0) (v 1))] := ⟨_, rfl, rfl⟩

/-- `resolver::cancel` after the thread took the query does not stop it. -/
theorem C122_late_violated (v : Nat → Nat) :
    ∃ s, run v [.make 0 (some 0) 0 1, .await 0, .start, .cancel 0, .finish, .resume] = .ok s ∧
      s.told = [(0, .found (v 0) (v 1))] := ⟨_, rfl, rfl⟩

/-- **C122**, in full: no program is undefined, a `co_await` gives the endpoints of the texts of the
call, and aborts if it is cancelled before the result is there. For operations that are awaited
where they are made the first two hold, and the third for `resolver::cancel` before the thread took
the query. Missing: operations awaited later (`C122_violated`, `C122_text_violated`), cancellation
of the coroutine (`C122_deaf_violated`) and later (`C122_late_violated`). -/
theorem C122_partial (v : Nat → Nat) (es : List Ev) (h : AtOnce es) (hs : run v es ≠ .stuck) :
    ∃ s, run v es = .ok s ∧ ∀ i o, (i, o) ∈ s.told →
      ∃ p r hh w b c, es = p ++ .make i r hh w :: .await i :: (b ++ .start :: c) ∧
        starts p + starts b = (awaits p).length ∧
        ((Cut r b ∧ o = .aborted) ∨ (¬ Cut r b ∧ o = .found (text v hh p) (text v w p))) := by
  cases hr : run v es with
  | stuck => exact absurd hr hs
  | ub =>
    exfalso
    obtain ⟨a, i, b, t, rfl, ha, hu⟩ := ub_first hr
    obtain ⟨p, r, hh, w, rfl⟩ := h a i b rfl
    obtain ⟨t0, h0⟩ := run_prefix ha
    rw [run_snoc, h0] at ha
    obtain ⟨⟨-, k1, k2, k3⟩, rfl⟩ := make_ok ha
    obtain ⟨r', h', w', e1, e2⟩ := await_ub hu
    simp only [upd_app, if_pos] at e1
    cases e1
    rcases e2 with e2 | e2 | e2
    · have : t0.has r = false := by cases r <;> exact e2
      rw [k1] at this; cases this
    · exact k2 e2
    · exact k3 e2
  | ok s =>
    refine ⟨s, rfl, fun i o hm => ?_⟩
    obtain ⟨-, a, r, hh, w, b, c, e1, m1, n1, k1⟩ := (C122_exact v es s hr i o).1 hm
    obtain ⟨p, r', h', w', rfl⟩ := h a i _ e1
    obtain ⟨rfl, rfl, rfl⟩ := (run_inv hr).2.uniq i r hh w r' h' w' (by rw [e1]; simp at m1 ⊢; grind)
      (by rw [e1]; simp)
    refine ⟨p, r, hh, w, b, c, by simpa using e1, ?_, ?_⟩
    · simpa [starts_append, awaits_snoc, Ev.awaited, starts, Ev.isStart] using n1
    · simpa [text_snoc, Ev.writes] using k1

/-- `test/io/lookup.cpp`: `co_await lookup("boost.org", "https")` -/
example : AtOnce [.make 0 none 0 1, .await 0, .start, .finish, .resume] := by
  intro a i b h
  match a, h with
  | [_], h => simp at h; exact ⟨[], none, 0, 1, by simp [← h.1, h.2.1]⟩
  | [], h => simp at h
  | [_, _], h => simp at h
  | [_, _, _], h => simp at h
  | [_, _, _, _], h => simp at h
  | _ :: _ :: _ :: _ :: _ :: _, h => simp at h

end Cobalt.Resv
