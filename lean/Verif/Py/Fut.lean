import Verif.Py.Lemmas
/-! # Futures: who is answered with what -/
namespace Cobalt.Py

/-- What is known of the futures after the events `es`. -/
structure Fu (es : List Ev) (h : Hist) (s : St) : Prop where
  nd : (h.made.map Prod.fst ++ s.works).Nodup
  sub : ∀ f ∈ h.made.map Prod.fst ++ s.works, f ∈ awaits es
  and' : (awaits es).Nodup
  perm : (s.got.map Prod.fst ++ s.pending).Perm (awaits es)
  cn : ∀ f ∈ cancels es, f ∈ s.got.map Prod.fst
  pend : ∀ f ∈ s.queue.map Prod.fst ++ s.works, f ∉ cancels es → f ∈ s.pending
  le : callbacks es ≤ h.made.length
  qu : s.queue = h.made.drop (callbacks es)
  dl : outs s.got = (h.made.take (callbacks es)).filter fun x => !(cancels es).contains x.1
  lo : s.lost = (h.made.take (callbacks es)).filter fun x => (cancels es).contains x.1
  dlv : ∀ f ∈ (h.made.take (callbacks es)).map Prod.fst, f ∈ s.got.map Prod.fst
  gone : s.alive = false → s.running = true → s.future ∈ cancels es
  ans : none ∉ tasks es → ∀ f ∈ s.pending, f ∈ s.queue.map Prod.fst ++ s.works
  nostop : ∀ x ∈ s.got, x.2 ≠ .stop

theorem fu_init : Fu [] {} {} := by
  constructor <;> simp [St.works, awaits, cancels, callbacks, outs]

/-- Who has been answered no longer waits. -/
theorem Fu.apart {es : List Ev} {h : Hist} {s : St} (i : Fu es h s) {f : Nat} (hf : f ∈ s.got.map Prod.fst) : f ∉ s.pending := by
  have := i.perm.nodup_iff.2 i.and'
  exact fun h' => (List.nodup_append.1 this).2.2 f hf f h' rfl

theorem got_in {es : List Ev} {h : Hist} {s : St} (i : Fu es h s) {f : Nat} (hf : f ∈ s.got.map Prod.fst) : f ∈ awaits es :=
  i.perm.mem_iff.1 (List.mem_append_left _ hf)

theorem pend_in {es : List Ev} {h : Hist} {s : St} (i : Fu es h s) {f : Nat} (hf : f ∈ s.pending) : f ∈ awaits es :=
  i.perm.mem_iff.1 (List.mem_append_right _ hf)

theorem filter_congr' {α : Type} {p q : α → Bool} : ∀ {l : List α}, (∀ x ∈ l, p x = q x) → l.filter p = l.filter q
  | [], _ => rfl
  | a :: l, h => by
    have := filter_congr' (l := l) fun x hx => h x (List.mem_cons_of_mem _ hx)
    simp [List.filter_cons, h a (List.mem_cons_self ..), this]

theorem Fu.step {es : List Ev} {h : Hist} {s : St} {e : Ev} (i : Fu es h s) (p : Ph h s)
    (tk : s.task = some .cancelled → none ∈ tasks es) (hs : s.ub = false)
    (ok : Ok s (awaits es) e) (hu : (s.step e).ub = false) : Fu (es ++ [e]) (h.next e) (s.step e) := by
  have hst : s.step e = s.go e := by unfold St.step; rw [hs]; rfl
  cases e with
  | await f l =>
    obtain ⟨o1, o2⟩ := ok
    have hst : s.step (.await f l) = s.await f l := hst
    rw [hst]
    have ea : awaits (es ++ [.await f l]) = awaits es ++ [f] := by simp [awaits_append, awaits, Ev.names]
    have ec : cancels (es ++ [.await f l]) = cancels es := by simp [cancels_append, cancels]
    have eb : callbacks (es ++ [.await f l]) = callbacks es := by simp [callbacks_append, callbacks]
    have et : tasks (es ++ [.await f l]) = tasks es := by simp [tasks_append, tasks]
    have nd' : (awaits es ++ [f]).Nodup := by
      rw [List.nodup_append]
      exact ⟨i.and', by simp, fun a ha b hb => by simp at hb; subst hb; exact fun e => o2 (e ▸ ha)⟩
    cases hh : s.handle with
    | false =>
      have hn : h.next (.await f l) = h := by
        have : ¬(h.cur = none ∧ h.over = false) := by
          intro ⟨h1, h2⟩
          cases hr : s.running with
          | true =>
            rw [p.cur, hr] at h1
            have : s.task = some .cancelled := by simpa using h1
            rw [p.tc this] at h2; cases h2
          | false =>
            rcases (p.rest hh hr).2 with h' | h'
            · rw [h'] at h2; cases h2
            · rw [h'] at o1; cases o1
        simp [Hist.next, this]
      have hq : s.await f l = { s with got := s.got ++ [(f, .invalid)] } := by simp [St.await, hh]
      rw [hn, hq]
      constructor
      · exact i.nd
      · intro g hg; rw [ea]; exact List.mem_append_left _ (i.sub g hg)
      · rw [ea]; exact nd'
      · rw [ea]
        simp only [List.map_append, List.map_cons, List.map_nil, List.append_assoc]
        refine (List.Perm.append_left _ List.perm_append_comm).trans ?_
        rw [← List.append_assoc]
        exact i.perm.append_right _
      · rw [ec]; intro g hg; simp only [List.map_append, List.mem_append]; exact .inl (i.cn g hg)
      · rw [ec]; exact i.pend
      · rw [eb]; exact i.le
      · rw [eb]; exact i.qu
      · rw [eb, ec]; simpa [outs_append, outs] using i.dl
      · rw [eb, ec]; exact i.lo
      · rw [eb]; intro g hg; simp only [List.map_append, List.mem_append]; exact .inl (i.dlv g hg)
      · rw [ec]; exact i.gone
      · rw [et]; exact i.ans
      · intro x hx; simp only [List.mem_append, List.mem_singleton] at hx
        rcases hx with hx | rfl
        · exact i.nostop x hx
        · simp
    | true =>
      have h3 := p.held hh
      have hc : h.cur = none := by rw [p.cur, h3.1]; rfl
      have hn : h.next (.await f l) = { h with cur := some f } := by simp [Hist.next, hc, h3]
      have hq : s.await f l = { s with
          future := f, handle := false, running := true, pending := s.pending ++ [f], tls := some (s.tls.getD l) } := by
        simp [St.await, hh, h3]
      have hw : s.works = [] := by simp [St.works, h3]
      rw [hn, hq]
      have i1 := i.nd
      have i2 := i.sub
      have i3 := i.pend
      have i4 := i.ans
      rw [hw, List.append_nil] at i1 i2 i3 i4
      constructor
      · show (h.made.map Prod.fst ++ [f]).Nodup
        rw [List.nodup_append]
        refine ⟨i1, by simp, fun a ha b hb => ?_⟩
        simp at hb; subst hb
        exact fun e => o2 (e ▸ i2 a ha)
      · intro g hg
        have hg : g ∈ h.made.map Prod.fst ++ [f] := hg
        rw [ea]
        rcases List.mem_append.1 hg with hg | hg
        · exact List.mem_append_left _ (i2 g hg)
        · exact List.mem_append_right _ hg
      · rw [ea]; exact nd'
      · rw [ea]
        show (s.got.map Prod.fst ++ (s.pending ++ [f])).Perm _
        rw [← List.append_assoc]
        exact i.perm.append_right _
      · rw [ec]; exact i.cn
      · rw [ec]; intro g hg hc
        have hg : g ∈ s.queue.map Prod.fst ++ [f] := hg
        rcases List.mem_append.1 hg with hg | hg
        · exact List.mem_append_left _ (i3 g hg hc)
        · exact List.mem_append_right _ hg
      · rw [eb]; exact i.le
      · rw [eb]; exact i.qu
      · rw [eb, ec]; exact i.dl
      · rw [eb, ec]; exact i.lo
      · rw [eb]; exact i.dlv
      · intro ha; have ha : s.alive = false := ha; rw [o1] at ha; cases ha
      · rw [et]; intro ht g hg
        show g ∈ s.queue.map Prod.fst ++ [f]
        rcases List.mem_append.1 hg with hg | hg
        · exact List.mem_append_left _ (i4 ht g hg)
        · exact List.mem_append_right _ hg
      · exact i.nostop
  | act a =>
    obtain ⟨o1, o2⟩ := ok
    have hst : s.step (.act a) = s.act a := hst
    rw [hst] at hu ⊢
    have ea : awaits (es ++ [.act a]) = awaits es := by simp [awaits_append, awaits, Ev.names]
    have ec : cancels (es ++ [.act a]) = cancels es := by simp [cancels_append, cancels]
    have eb : callbacks (es ++ [.act a]) = callbacks es := by simp [callbacks_append, callbacks]
    have et : tasks (es ++ [.act a]) = tasks es := by simp [tasks_append, tasks]
    have hc : h.cur = some s.future := by rw [p.cur, o1, o2]; rfl
    have hn : h.next (.act a) = { cur := none, over := a.last, made := h.made ++ [(s.future, a.out)] } := by
      simp [Hist.next, hc]
    have hw : s.works = [s.future] := by simp [St.works, o1]
    have q : (s.act a).queue = s.queue ++ [(s.future, a.out)] ∧ (s.act a).running = false ∧
        (s.act a).pending = s.pending ∧ (s.act a).got = s.got ∧ (s.act a).lost = s.lost := by
      cases a with
      | yield v =>
        simp only [St.act] at hu ⊢
        cases ha : s.alive with
        | false => simp [ha] at hu
        | true => simp [Act.out]
      | _ => simp [St.act, Act.out]
    obtain ⟨q1, q2, q3, q4, q5⟩ := q
    have hw' : (s.act a).works = [] := by simp [St.works, q2]
    rw [hn]
    have i1 := i.nd
    have i2 := i.sub
    have i3 := i.pend
    have i4 := i.ans
    rw [hw] at i1 i2 i3 i4
    constructor
    · rw [hw']; simpa using i1
    · rw [hw', ea]; simpa using i2
    · rw [ea]; exact i.and'
    · rw [ea, q3, q4]; exact i.perm
    · rw [ec, q4]; exact i.cn
    · rw [hw', ec, q1, q3]; simpa using i3
    · rw [eb]; have := i.le; simp; omega
    · rw [eb, q1, i.qu]
      show _ = (h.made ++ [(s.future, a.out)]).drop _
      rw [List.drop_append_of_le_length i.le]
    · rw [eb, ec, q4, i.dl]
      show _ = List.filter _ ((h.made ++ [(s.future, a.out)]).take _)
      rw [List.take_append_of_le_length i.le]
    · rw [eb, ec, q5, i.lo]
      show _ = List.filter _ ((h.made ++ [(s.future, a.out)]).take _)
      rw [List.take_append_of_le_length i.le]
    · rw [eb, q4]
      show ∀ f ∈ ((h.made ++ [(s.future, a.out)]).take _).map Prod.fst, _
      rw [List.take_append_of_le_length i.le]
      exact i.dlv
    · intro _ hr; rw [q2] at hr; cases hr
    · rw [hw', et, q1, q3]; simpa using i4
    · rw [q4]; exact i.nostop
  | callback =>
    have ok : s.queue ≠ [] := ok
    have hst : s.step .callback = s.callback := hst
    rw [hst]
    have ea : awaits (es ++ [.callback]) = awaits es := by simp [awaits_append, awaits, Ev.names]
    have ec : cancels (es ++ [.callback]) = cancels es := by simp [cancels_append, cancels]
    have eb : callbacks (es ++ [.callback]) = callbacks es + 1 := by simp [callbacks_append, callbacks]
    have et : tasks (es ++ [.callback]) = tasks es := by simp [tasks_append, tasks]
    have hn : h.next .callback = h := rfl
    rw [hn]
    obtain ⟨⟨f, o⟩, q, hq⟩ : ∃ x q, s.queue = x :: q := by
      cases hq : s.queue with
      | nil => exact absurd hq ok
      | cons x q => exact ⟨x, q, rfl⟩
    have hd : h.made.drop (callbacks es) = (f, o) :: q := by rw [← i.qu, hq]
    have hlt : callbacks es < h.made.length := by
      rcases Nat.lt_or_ge (callbacks es) h.made.length with h' | h'
      · exact h'
      · rw [List.drop_eq_nil_of_le h'] at hd; cases hd
    have hget : h.made[callbacks es]? = some (f, o) := by
      have : (h.made.drop (callbacks es))[0]? = some (f, o) := by rw [hd]; rfl
      simpa using this
    have htk : h.made.take (callbacks es + 1) = h.made.take (callbacks es) ++ [(f, o)] := by
      rw [List.take_add_one, hget]; rfl
    have hdr : h.made.drop (callbacks es + 1) = q := by
      rw [← List.drop_drop, hd]; rfl
    have nd2 : (((f, o) :: q).map Prod.fst ++ s.works).Nodup := by
      have h1 : h.made = h.made.take (callbacks es) ++ (f, o) :: q := by rw [← hd, List.take_append_drop]
      have := i.nd
      rw [h1, List.map_append, List.append_assoc] at this
      exact (List.nodup_append.1 this).2.1
    have hfn : f ∉ q.map Prod.fst ++ s.works := by
      rw [List.map_cons, List.cons_append] at nd2
      exact (List.nodup_cons.1 nd2).1
    have i3 := i.pend
    rw [hq] at i3
    have pn : s.pending.Nodup := (List.nodup_append.1 (i.perm.nodup_iff.2 i.and')).2.1
    cases hp : s.pending.contains f with
    | true =>
      have hp' : f ∈ s.pending := by simpa using hp
      have hfc : f ∉ cancels es := fun h' => i.apart (i.cn f h') hp'
      have he : s.callback = { s with queue := q, pending := s.pending.erase f, got := s.got ++ [(f, .out o)] } := by
        unfold St.callback; rw [hq]; simp [hp']
      rw [he]
      constructor
      · exact i.nd
      · rw [ea]; exact i.sub
      · rw [ea]; exact i.and'
      · rw [ea]
        simp only [List.map_append, List.map_cons, List.map_nil, List.append_assoc]
        refine (List.Perm.append_left _ ?_).trans i.perm
        exact (List.perm_cons_erase hp').symm
      · rw [ec]; intro g hg; simp only [List.map_append, List.mem_append]; exact .inl (i.cn g hg)
      · rw [ec]; intro g hg hc
        have hne : g ≠ f := fun e => hfn (e ▸ hg)
        rw [List.mem_erase_of_ne hne]
        exact i3 g (by rw [List.map_cons, List.cons_append]; exact List.mem_cons_of_mem _ hg) hc
      · rw [eb]; omega
      · rw [eb]; exact hdr.symm
      · rw [eb, ec, htk, List.filter_append, ← i.dl]
        simp [outs_append, outs, hfc]
      · rw [eb, ec, htk, List.filter_append, ← i.lo]
        simp [hfc]
      · rw [eb, htk]
        intro g hg
        simp only [List.map_append, List.mem_append] at hg ⊢
        rcases hg with hg | hg
        · exact .inl (i.dlv g hg)
        · exact .inr hg
      · rw [ec]; exact i.gone
      · rw [et]; intro ht g hg
        have h1 := i.ans ht g (List.mem_of_mem_erase hg)
        rw [hq] at h1
        have hne : g ≠ f := fun e => (List.Nodup.mem_erase_iff pn).1 hg |>.1 e
        rcases List.mem_cons.1 (by simpa using h1 : g ∈ f :: (q.map Prod.fst ++ s.works)) with h' | h'
        · exact absurd h' hne
        · exact h'
      · intro x hx; simp only [List.mem_append, List.mem_singleton] at hx
        rcases hx with hx | rfl
        · exact i.nostop x hx
        · simp
    | false =>
      have hp' : f ∉ s.pending := by simpa using hp
      have hfc : f ∈ cancels es := Classical.byContradiction fun h' => hp' (i3 f (by simp) h')
      have he : s.callback = { s with queue := q, lost := s.lost ++ [(f, o)] } := by
        unfold St.callback; rw [hq]; simp [hp']
      rw [he]
      constructor
      · exact i.nd
      · rw [ea]; exact i.sub
      · rw [ea]; exact i.and'
      · rw [ea]; exact i.perm
      · rw [ec]; exact i.cn
      · rw [ec]; intro g hg hc
        exact i3 g (by rw [List.map_cons, List.cons_append]; exact List.mem_cons_of_mem _ hg) hc
      · rw [eb]; omega
      · rw [eb]; exact hdr.symm
      · rw [eb, ec, htk, List.filter_append, ← i.dl]
        simp [hfc]
      · rw [eb, ec, htk, List.filter_append, ← i.lo]
        simp [hfc]
      · rw [eb, htk]
        intro g hg
        simp only [List.map_append, List.mem_append] at hg
        rcases hg with hg | hg
        · exact i.dlv g hg
        · simp at hg; subst hg; exact i.cn _ hfc
      · rw [ec]; exact i.gone
      · rw [et]; intro ht g hg
        have h1 := i.ans ht g hg
        rw [hq] at h1
        rcases List.mem_cons.1 (by simpa using h1 : g ∈ f :: (q.map Prod.fst ++ s.works)) with h' | h'
        · subst h'; exact absurd hg hp'
        · exact h'
      · exact i.nostop
  | cancel f =>
    have ok : f ∈ s.pending := ok
    have hst : s.step (.cancel f) = s.cancel f := hst
    rw [hst]
    have ea : awaits (es ++ [.cancel f]) = awaits es := by simp [awaits_append, awaits, Ev.names]
    have ec : cancels (es ++ [.cancel f]) = cancels es ++ [f] := by simp [cancels_append, cancels]
    have eb : callbacks (es ++ [.cancel f]) = callbacks es := by simp [callbacks_append, callbacks]
    have et : tasks (es ++ [.cancel f]) = tasks es := by simp [tasks_append, tasks]
    have hn : h.next (.cancel f) = h := rfl
    have he : s.cancel f = { s with pending := s.pending.erase f, got := s.got ++ [(f, .cancelled)] } := by
      unfold St.cancel; simp [ok]
    rw [hn, he]
    have same : ∀ x ∈ h.made.take (callbacks es), (cancels es ++ [f]).contains x.1 = (cancels es).contains x.1 := by
      intro x hx
      have hne : x.1 ≠ f := fun e => i.apart (i.dlv x.1 (List.mem_map_of_mem hx)) (e ▸ ok)
      simp [hne]
    constructor
    · exact i.nd
    · rw [ea]; exact i.sub
    · rw [ea]; exact i.and'
    · rw [ea]
      simp only [List.map_append, List.map_cons, List.map_nil, List.append_assoc]
      refine (List.Perm.append_left _ ?_).trans i.perm
      exact (List.perm_cons_erase ok).symm
    · rw [ec]; intro g hg
      simp only [List.map_append, List.mem_append] at hg ⊢
      rcases hg with hg | hg
      · exact .inl (i.cn g hg)
      · exact .inr hg
    · rw [ec]; intro g hg hc
      simp only [List.mem_append, List.mem_singleton, not_or] at hc
      rw [List.mem_erase_of_ne hc.2]
      exact i.pend g hg hc.1
    · rw [eb]; exact i.le
    · rw [eb]; exact i.qu
    · rw [eb, ec]
      rw [filter_congr' (q := fun x => !(cancels es).contains x.1) (fun x hx => by rw [same x hx])]
      simpa [outs_append, outs] using i.dl
    · rw [eb, ec]
      rw [filter_congr' (q := fun x => (cancels es).contains x.1) same]
      exact i.lo
    · rw [eb]; intro g hg; simp only [List.map_append, List.mem_append]; exact .inl (i.dlv g hg)
    · rw [ec]; intro h1 h2; exact List.mem_append_left _ (i.gone h1 h2)
    · rw [et]; intro ht g hg; exact i.ans ht g (List.mem_of_mem_erase hg)
    · intro x hx; simp only [List.mem_append, List.mem_singleton] at hx
      rcases hx with hx | rfl
      · exact i.nostop x hx
      · simp
  | drop =>
    obtain ⟨o1, o2⟩ := ok
    have hst : s.step .drop = s.drop := hst
    rw [hst]
    have ea : awaits (es ++ [.drop]) = awaits es := by simp [awaits_append, awaits, Ev.names]
    have ec : cancels (es ++ [.drop]) = cancels es := by simp [cancels_append, cancels]
    have eb : callbacks (es ++ [.drop]) = callbacks es := by simp [callbacks_append, callbacks]
    have et : tasks (es ++ [.drop]) = tasks es := by simp [tasks_append, tasks]
    have hn : h.next .drop = h := rfl
    rw [hn]
    have q : s.drop.queue = s.queue ∧ s.drop.pending = s.pending ∧ s.drop.got = s.got ∧ s.drop.lost = s.lost ∧
        s.drop.works = s.works ∧ s.drop.running = s.running ∧ s.drop.future = s.future := by
      unfold St.drop; split <;> simp [St.works]
    obtain ⟨q1, q2, q3, q4, q5, q6, q7⟩ := q
    constructor
    · rw [q5]; exact i.nd
    · rw [q5, ea]; exact i.sub
    · rw [ea]; exact i.and'
    · rw [ea, q2, q3]; exact i.perm
    · rw [ec, q3]; exact i.cn
    · rw [q5, q1, q2, ec]; exact i.pend
    · rw [eb]; exact i.le
    · rw [q1, eb]; exact i.qu
    · rw [q3, eb, ec]; exact i.dl
    · rw [q4, eb, ec]; exact i.lo
    · rw [q3, eb]; exact i.dlv
    · rw [q6, q7, ec]; intro _ hr
      refine Classical.byContradiction fun h' => ?_
      have := i.pend s.future (by simp [St.works, hr]) h'
      rw [o2] at this; cases this
    · rw [q1, q2, q5, et]; exact i.ans
    · rw [q3]; exact i.nostop
  | awaitTask =>
    have hst : s.step .awaitTask = { s with task := some .pending } := hst
    rw [hst]
    have ea : awaits (es ++ [.awaitTask]) = awaits es := by simp [awaits_append, awaits, Ev.names]
    have ec : cancels (es ++ [.awaitTask]) = cancels es := by simp [cancels_append, cancels]
    have eb : callbacks (es ++ [.awaitTask]) = callbacks es := by simp [callbacks_append, callbacks]
    have et : tasks (es ++ [.awaitTask]) = tasks es := by simp [tasks_append, tasks]
    obtain ⟨i1, i2, i3, i4, i5, i6, i7, i8, i9, i10, i11, i12, i13, i14⟩ := i
    exact ⟨i1, by rw [ea]; exact i2, by rw [ea]; exact i3, by rw [ea]; exact i4, by rw [ec]; exact i5, by rw [ec]; exact i6,
      by rw [eb]; exact i7, by rw [eb]; exact i8, by rw [eb, ec]; exact i9, by rw [eb, ec]; exact i10, by rw [eb]; exact i11,
      by rw [ec]; exact i12, by rw [et]; exact i13, i14⟩
  | taskEnds t =>
    have ea : awaits (es ++ [.taskEnds t]) = awaits es := by simp [awaits_append, awaits, Ev.names]
    have ec : cancels (es ++ [.taskEnds t]) = cancels es := by simp [cancels_append, cancels]
    have eb : callbacks (es ++ [.taskEnds t]) = callbacks es := by simp [callbacks_append, callbacks]
    have et : tasks (es ++ [.taskEnds t]) = tasks es ++ [t] := by simp [tasks_append, tasks]
    have q : ∃ k, s.step (.taskEnds t) = { s with task := k } := by
      cases t <;> exact ⟨_, hst⟩
    have hm : (h.next (.taskEnds t)).made = h.made := by cases t <;> rfl
    obtain ⟨k, hk⟩ := q
    rw [hk]
    obtain ⟨i1, i2, i3, i4, i5, i6, i7, i8, i9, i10, i11, i12, i13, i14⟩ := i
    exact ⟨by rw [hm]; exact i1, by rw [ea, hm]; exact i2, by rw [ea]; exact i3, by rw [ea]; exact i4, by rw [ec]; exact i5,
      by rw [ec]; exact i6, by rw [eb, hm]; exact i7, by rw [eb, hm]; exact i8, by rw [eb, ec, hm]; exact i9,
      by rw [eb, ec, hm]; exact i10, by rw [eb, hm]; exact i11,
      by rw [ec]; exact i12, by rw [et]; exact fun h' => i13 fun h'' => h' (List.mem_append_left _ h''), i14⟩
  | taskCallback =>
    have ea : awaits (es ++ [.taskCallback]) = awaits es := by simp [awaits_append, awaits, Ev.names]
    have ec : cancels (es ++ [.taskCallback]) = cancels es := by simp [cancels_append, cancels]
    have eb : callbacks (es ++ [.taskCallback]) = callbacks es := by simp [callbacks_append, callbacks]
    have et : tasks (es ++ [.taskCallback]) = tasks es := by simp [tasks_append, tasks]
    have hst : s.step .taskCallback = s.taskCallback := hst
    have hn : h.next .taskCallback = h := rfl
    rw [hst, hn]
    have hr := p.task ok.1
    obtain ⟨i1, i2, i3, i4, i5, i6, i7, i8, i9, i10, i11, i12, i13, i14⟩ := i
    unfold St.taskCallback
    split
    · exact ⟨i1, by rw [ea]; exact i2, by rw [ea]; exact i3, by rw [ea]; exact i4, by rw [ec]; exact i5, by rw [ec]; exact i6,
        by rw [eb]; exact i7, by rw [eb]; exact i8, by rw [eb, ec]; exact i9, by rw [eb, ec]; exact i10, by rw [eb]; exact i11,
        by rw [ec]; exact i12, by rw [et]; exact i13, i14⟩
    · next ht =>
      have hw : s.works = [s.future] := by simp [St.works, hr]
      rw [hw] at i1 i2 i6
      exact ⟨by simpa [St.works] using (List.nodup_append.1 i1).1,
        by rw [ea]; intro f hf; exact i2 f (List.mem_append_left _ (by simpa [St.works] using hf)),
        by rw [ea]; exact i3, by rw [ea]; exact i4, by rw [ec]; exact i5,
        by rw [ec]; intro f hf; exact i6 f (List.mem_append_left _ (by simpa [St.works] using hf)),
        by rw [eb]; exact i7, by rw [eb]; exact i8, by rw [eb, ec]; exact i9, by rw [eb, ec]; exact i10, by rw [eb]; exact i11,
        (by intro _ h'; cases h'), (by rw [et]; intro h'; exact absurd (tk ht) h'), i14⟩
    · exact ⟨i1, by rw [ea]; exact i2, by rw [ea]; exact i3, by rw [ea]; exact i4, by rw [ec]; exact i5, by rw [ec]; exact i6,
        by rw [eb]; exact i7, by rw [eb]; exact i8, by rw [eb, ec]; exact i9, by rw [eb, ec]; exact i10, by rw [eb]; exact i11,
        by rw [ec]; exact i12, by rw [et]; exact i13, i14⟩

theorem tk_run {es : List Ev} (hl : Legal {} [] es) : (run es).task = some .cancelled → none ∈ tasks es := by
  refine legal_ind (P := fun es => (run es).task = some .cancelled → none ∈ tasks es) ?_ ?_ es hl
  · intro h; cases h
  · intro es e _ ih ok
    rw [run_snoc, tasks_append]
    intro h
    refine (List.mem_append.2 ?_)
    cases hub : (run es).ub with
    | true => rw [ub_stays _ hub] at h; exact .inl (ih h)
    | false =>
      have hst : (run es).step e = (run es).go e := by unfold St.step; rw [hub]; rfl
      rw [hst] at h
      cases e with
      | await f l => left; replace h : ((run es).await f l).task = _ := h; simp only [St.await] at h; repeat' split at h
                     all_goals exact ih h
      | act a =>
        left
        cases a with
        | yield v => replace h : ((run es).act (.yield v)).task = _ := h; simp only [St.act] at h; split at h <;> exact ih h
        | _ => exact ih h
      | callback => left; replace h : (run es).callback.task = _ := h; simp only [St.callback] at h; repeat' split at h
                    all_goals exact ih h
      | cancel f => left; replace h : ((run es).cancel f).task = _ := h; unfold St.cancel at h; split at h <;> exact ih h
      | drop => left; replace h : (run es).drop.task = _ := h; unfold St.drop at h; split at h <;> exact ih h
      | awaitTask => cases h
      | taskEnds t =>
        cases t with
        | none => right; simp [tasks]
        | some o => cases h
      | taskCallback =>
        left
        replace h : (run es).taskCallback.task = _ := h
        unfold St.taskCallback at h
        split at h
        · cases h
        · cases h
        · exact ih h

theorem fu {es : List Ev} (hl : Legal {} [] es) : (run es).ub = false → Fu es (hist es) (run es) := by
  refine legal_ind (P := fun es => (run es).ub = false → Fu es (hist es) (run es)) (fun _ => fu_init) ?_ es hl
  intro es e hl ih ok hu
  have h := ub_snoc hu
  rw [run_snoc] at hu ⊢
  rw [hist_snoc]
  exact (ih h).step (ph hl h) (tk_run hl) h ok hu

end Cobalt.Py
