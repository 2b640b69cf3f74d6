import Verif.Limit.Lemmas
/-!
# C106: a server that limits its sessions
-/
namespace Cobalt.Limit

/-- **C106**: there are never more sessions than the limit says. -/
theorem C106_limit (kind : Kind) (lim : Nat) (hl : 0 < lim) (es : List Ev) (hg : Legal { kind, lim } es) :
    (running kind lim es).length ≤ lim := by
  obtain ⟨h, k⟩ := K.all hl hg
  rw [k.running.length_eq, List.length_map]
  have h1 := k.le
  rw [(run_kind kind lim es).2] at h1
  exact Nat.le_trans (List.length_filter_le _ _) h1

/-- How many connections there were. -/
def connects (es : List Ev) : Nat := (es.filter fun e => e == .connect).length

/-- **C106**: every connection is given to one session, in the order in which they came. -/
theorem C106_order (kind : Kind) (lim : Nat) (hl : 0 < lim) (es : List Ev) (hg : Legal { kind, lim } es) :
    (run kind lim es).started ++ (run kind lim es).pend = List.range (connects es) := by
  obtain ⟨h, k⟩ := K.all hl hg
  have key : ∀ (es : List Ev) (s : St), (es.foldl St.step s).conns = s.conns + connects es := by
    intro es
    induction es with
    | nil => intro s; rfl
    | cons e es ih =>
      intro s
      rw [List.foldl_cons, ih]
      have h1 : (s.step e).conns = s.conns + connects [e] := by
        unfold St.step
        cases e with
        | connect => rfl
        | finish c o =>
          show _ = s.conns
          split
          · unfold St.act
            dsimp only
            split
            · exact (waited_fields _).2.2.2.1
            · rfl
          · rfl
        | turn order =>
          show _ = s.conns
          split
          · unfold St.act
            dsimp only
            split
            · split
              · exact (waited_fields _).2.2.2.1
              · rfl
            · split <;> rfl
          · rfl
      rw [h1]
      have h2 : connects (e :: es) = connects [e] + connects es := by
        unfold connects
        rw [← List.length_append, ← List.filter_append, List.singleton_append]
      omega
  rw [k.ord, show (run kind lim es).conns = connects es by
    have := key es { kind, lim }
    simpa [run] using this]

example : Legal { kind := .echo, lim := 1 } [.connect, .connect, .turn [], .turn [], .turn [0], .finish 0 .ok, .turn [], .turn []] ∧
    (run .echo 1 [.connect, .connect, .turn [], .turn [], .turn [0]]).ph = .one ∧
    (run .echo 1 [.connect, .connect, .turn [], .turn [], .turn [0], .finish 0 .ok, .turn [], .turn []]).started = [0, 1] ∧
    running .echo 1 [.connect, .connect, .turn [], .turn [], .turn [0], .finish 0 .ok, .turn [], .turn []] = [1] := by decide

/-- **C106**: nobody waits without need. If the server stands still although a connection is pending, then as many sessions
run as the limit allows. -/
theorem C106_prompt (kind : Kind) (lim : Nat) (hl : 0 < lim) (es : List Ev) (hg : Legal { kind, lim } es)
    (ha : (run kind lim es).alive) (hs : ¬ (run kind lim es).goesOn) (hp : (run kind lim es).pend ≠ []) :
    (running kind lim es).length = lim := by
  obtain ⟨h, k⟩ := K.all hl hg
  cases hph : (run kind lim es).ph with
  | top =>
    exfalso
    refine hs ⟨List.range (run kind lim es).g.members.length, ?_⟩
    unfold St.ok
    rw [hph]
    have hw := k.idle (by rw [hph]; simp)
    have : (List.range (run kind lim es).g.members.length).isPerm (List.range (run kind lim es).g.members.length) = true :=
      List.isPerm_iff.2 (List.Perm.refl _)
    simp [Group.St.can, hw, this]
  | accept =>
    exfalso
    refine hs ⟨[], ?_⟩
    unfold St.ok
    rw [hph]
    simpa using hp
  | one =>
    obtain ⟨w, hw, hlen⟩ := k.one hph
    rw [k.running.length_eq, List.length_map, List.filter_eq_self.2, hlen, (run_kind kind lim es).2]
    intro m hm
    obtain ⟨i, hi⟩ := List.mem_iff_getElem?.1 hm
    rw [(k.inv.one w _ hw).2.2 i m (List.getElem?_eq_some_iff.1 hi).1 hi]
    rfl
  | failed x => exact absurd hph (ha x)

example : Legal { kind := .ticker, lim := 1 } [.connect, .connect, .turn [], .turn [], .turn [0]] ∧
    (run .ticker 1 [.connect, .connect, .turn [], .turn [], .turn [0]]).pend = [1] ∧
    (run .ticker 1 [.connect, .connect, .turn [], .turn [], .turn [0]]).ph = .one := by decide

/-- How far the server is from the next connection. -/
def St.away (s : St) : Nat :=
  match s.ph with
  | .top => if s.full then 3 else 2
  | _ => 1

theorem away_lt {s : St} (h : s.full = false) : s.away < 3 := by
  unfold St.away
  rw [h]
  split
  · simp
  · omega

/-- **C106**: as long as no session has failed and fewer run than the limit allows, the next connection is served after at
most three turns of the server. -/
theorem C106_progress (kind : Kind) (lim : Nat) (hl : 0 < lim) (es : List Ev) (o : List Nat)
    (hg : Legal { kind, lim } (es ++ [.turn o])) (hok : ∀ c x, outcome c es ≠ some (.err x))
    (hr : (running kind lim es).length < lim) {c : Nat} {cs : List Nat} (hp : (run kind lim es).pend = c :: cs) :
    (run kind lim (es ++ [.turn o])).started = (run kind lim es).started ++ [c] ∨
    ((run kind lim (es ++ [.turn o])).pend = c :: cs ∧ (run kind lim (es ++ [.turn o])).alive ∧
      (run kind lim (es ++ [.turn o])).away < (run kind lim es).away) := by
  obtain ⟨hg1, hx⟩ := legal_snoc hg
  have hx' : (run kind lim es).ok (.turn o) = true := hx
  obtain ⟨h, k⟩ := K.all hl hg1
  have hlim := (run_kind kind lim es).2
  rw [run_snoc, show (run kind lim es).step (.turn o) = (run kind lim es).act (.turn o) by rw [St.step, if_pos hx']]
  have hrun := k.running.length_eq
  rw [List.length_map] at hrun
  generalize run kind lim es = s at *
  unfold St.act
  dsimp only
  cases hph : s.ph with
  | top =>
    right
    dsimp only
    have hw := k.idle (by rw [hph]; simp)
    have haway : s.away = if s.full then 3 else 2 := by unfold St.away; rw [hph]
    rw [haway]
    by_cases hf : s.full = true
    · rw [if_pos hf, if_pos hf]
      have hlen := (full_iff k.le).1 hf
      have hc : s.g.can (.waitOne 0 o) = true := by
        unfold St.ok at hx'
        rw [hph, hf] at hx'
        simpa using hx'
      have hne : s.g.members ≠ [] := by
        intro he
        rw [he] at hlen
        simp at hlen
        omega
      have hst := Group.step_eq k.inv.ub hc
      have hperm : o.Perm (List.range s.g.members.length) := by
        have := hc
        simp only [Group.St.can, Bool.and_eq_true] at this
        exact List.isPerm_iff.1 this.1
      rcases waitOne_cases hw hne 0 o with ⟨-, h1⟩ | ⟨i, m, -, hm, hmo, h1⟩
      · exfalso
        have : s.g.members.filter (fun m => m.out.isNone) = s.g.members := by
          rw [List.filter_eq_self]
          intro m hm
          obtain ⟨i, hi⟩ := List.mem_iff_getElem?.1 hm
          rw [List.find?_eq_none] at h1
          have h2 := h1 i (hperm.mem_iff.2 (List.mem_range.2 (List.getElem?_eq_some_iff.1 hi).1))
          unfold Group.St.doneAt at h2
          rw [hi] at h2
          cases hx : m.out <;> simp_all
        rw [this] at hrun
        omega
      · obtain ⟨h2, -, h4⟩ := won (w := 0) hm hmo
        have hmm : m ∈ s.g.members := List.mem_iff_getElem?.2 ⟨i, hm⟩
        rcases h4 with ⟨x, hx, -⟩ | ⟨-, h4, h5⟩
        · exfalso
          rw [k.inv.out m hmm, k.out] at hx
          exact hok _ _ hx
        · have hsx : s.g.step (.waitOne 0 o) = Group.St.wonBy s.g 0 i := hst.trans h1
          rw [waited_ok (s := { s with ph := .top, g := s.g.step (.waitOne 0 o) }) (w := 0) (l := s.g.log)
            (by show (s.g.step _).wait = _; rw [hsx, h2]) (by show (s.g.step _).log = _; rw [hsx, h4])]
          have hgl : (s.g.step (.waitOne 0 o)).members.length + 1 = s.g.members.length := by rw [hsx]; exact h5
          refine ⟨hp, ?_, ?_⟩
          · intro x
            show s.kind.next ≠ _
            cases s.kind <;> simp [Kind.next]
          · refine away_lt ?_
            unfold St.full
            show (match s.kind with
              | .echo => (s.g.step (.waitOne 0 o)).members.length == s.lim
              | .ticker => decide (s.lim ≤ (s.g.step (.waitOne 0 o)).members.length)) = false
            cases s.kind
            · simp only [beq_eq_false_iff_ne]; omega
            · simp only [decide_eq_false_iff_not]; omega
    · rw [if_neg hf, if_neg hf]
      exact ⟨hp, fun x => by show Ph.accept ≠ _; simp, by show (1 : Nat) < 2; omega⟩
  | accept =>
    left
    dsimp only
    rw [hp]
  | one => unfold St.ok at hx'; rw [hph] at hx'; cases hx'
  | failed x => unfold St.ok at hx'; rw [hph] at hx'; cases hx'

example : Legal { kind := .echo, lim := 1 } [.connect, .turn [], .turn [], .finish 0 .ok, .connect, .turn [0]] ∧
    (run .echo 1 [.connect, .turn [], .turn [], .finish 0 .ok, .connect]).away = 3 ∧
    (run .echo 1 [.connect, .turn [], .turn [], .finish 0 .ok, .connect]).pend = [1] ∧
    (run .echo 1 [.connect, .turn [], .turn [], .finish 0 .ok, .connect, .turn [0], .turn [], .turn []]).started = [0, 1] := by
  decide

/-- The connection of the member at `i`, if its session has ended. -/
def endedAt (kind : Kind) (lim : Nat) (es : List Ev) (i : Nat) : Bool :=
  ((run kind lim es).g.ids[i]?).any fun c => (outcome c es).isSome

/-- The server fails exactly if a session fails while it waits in `wait_one`, or if `wait_one`, called by a server that
is full, comes upon a failed one first. -/
theorem C106_stop_exact (kind : Kind) (lim : Nat) (hl : 0 < lim) (es : List Ev) (e : Ev) (hg : Legal { kind, lim } (es ++ [e]))
    (ha : (run kind lim es).alive) (x : Nat) :
    (run kind lim (es ++ [e])).ph = .failed x ↔
      ((run kind lim es).ph = .one ∧ ∃ c, e = .finish c (.err x)) ∨
      ((run kind lim es).ph = .top ∧ (run kind lim es).g.ids.length = lim ∧ ∃ o i c, e = .turn o ∧
        o.find? (endedAt kind lim es) = some i ∧ (run kind lim es).g.ids[i]? = some c ∧ outcome c es = some (.err x)) := by
  obtain ⟨hg1, hx⟩ := legal_snoc hg
  have hx' : (run kind lim es).ok e = true := hx
  obtain ⟨h, k⟩ := K.all hl hg1
  have hlim := (run_kind kind lim es).2
  have hat : ∀ i, endedAt kind lim es i = (run kind lim es).g.doneAt i := by
    intro i
    unfold endedAt Group.St.doneAt Group.St.ids
    rw [List.getElem?_map]
    cases hm : (run kind lim es).g.members[i]? with
    | none => rfl
    | some m =>
      have := k.inv.out m (List.mem_iff_getElem?.2 ⟨i, hm⟩)
      simp [this, k.out]
  have hfn : endedAt kind lim es = (run kind lim es).g.doneAt := funext hat
  rw [run_snoc, show (run kind lim es).step e = (run kind lim es).act e by rw [St.step, if_pos hx'], hfn]
  generalize run kind lim es = s at *
  have hids : s.g.ids.length = s.g.members.length := by simp [Group.St.ids]
  cases e with
  | connect =>
    refine ⟨fun hc => absurd hc (ha x), ?_⟩
    rintro (⟨-, c, hc⟩ | ⟨-, -, o, i, c, hc, -⟩) <;> cases hc
  | finish c o =>
    have hc : s.g.can (.complete c o) = true := hx'
    have hs := Group.step_eq k.inv.ub hc
    unfold St.act
    dsimp only
    by_cases hph : s.ph = .one
    · rw [if_pos hph]
      obtain ⟨w, hw, hlen⟩ := k.one hph
      obtain ⟨i, m, hm, -, hmo, hcm⟩ := complete_won hw hc
      have hst : s.g.step (.complete c o) = Group.St.wonBy { s.g with members := s.g.ended c o } w i := hs.trans hcm
      obtain ⟨h1, -, h3⟩ := won (s := { s.g with members := s.g.ended c o }) (w := w) hm (by rw [hmo]; rfl)
      have h1' : (s.g.step (.complete c o)).wait = none := by rw [hst]; exact h1
      rcases h3 with ⟨y, hy, h4, -⟩ | ⟨hy, h4, -⟩
      · rw [waited_err (s := { s with g := s.g.step (.complete c o) }) (w := w) (x := y) (l := s.g.log) h1'
          (by show (s.g.step _).log = _; rw [hst]; exact h4)]
        rw [hmo] at hy
        simp only [Option.some.injEq] at hy
        subst hy
        simp only [Ph.failed.injEq]
        constructor
        · rintro rfl; exact .inl ⟨hph, c, rfl⟩
        · rintro (⟨-, d, hd⟩ | ⟨-, -, o, i, c, hd, -⟩)
          · simp only [Ev.finish.injEq, Group.Out.err.injEq] at hd
            exact hd.2
          · cases hd
      · rw [waited_ok (s := { s with g := s.g.step (.complete c o) }) (w := w) (l := s.g.log) h1'
          (by show (s.g.step _).log = _; rw [hst]; exact h4)]
        rw [hmo] at hy
        simp only [Option.some.injEq] at hy
        subst hy
        constructor
        · intro hd
          exfalso
          have hd' : s.kind.next = .failed x := hd
          cases hk : s.kind <;> rw [hk] at hd' <;> cases hd'
        · rintro (⟨-, d, hd⟩ | ⟨-, -, o, i, c, hd, -⟩) <;> cases hd
    · rw [if_neg hph]
      refine ⟨fun hc => absurd hc (ha x), ?_⟩
      rintro (⟨h1, -⟩ | ⟨-, -, o, i, c, hd, -⟩)
      · exact absurd h1 hph
      · cases hd
  | turn o =>
    unfold St.act
    dsimp only
    cases hph : s.ph with
    | top =>
      dsimp only
      have hw := k.idle (by rw [hph]; simp)
      by_cases hf : s.full = true
      · rw [if_pos hf]
        have hlen := (full_iff k.le).1 hf
        have hc : s.g.can (.waitOne 0 o) = true := by
          unfold St.ok at hx'
          rw [hph, hf] at hx'
          simpa using hx'
        have hne : s.g.members ≠ [] := by
          intro he
          rw [he] at hlen
          simp at hlen
          omega
        have hst := Group.step_eq k.inv.ub hc
        rcases waitOne_cases hw hne 0 o with ⟨h1, h2⟩ | ⟨i, m, hfi, hm, hmo, h1⟩
        · have hsx : s.g.step (.waitOne 0 o) = { s.g with wait := some (.one 0 s.g.members.length) } := hst.trans h1
          rw [waited_wait (s := { s with ph := .top, g := s.g.step (.waitOne 0 o) }) (v := .one 0 s.g.members.length)
            (by show (s.g.step _).wait = _; rw [hsx])]
          constructor
          · intro hd; cases hd
          · rintro (⟨hd, -⟩ | ⟨-, -, o', i, c, hd, h3, -⟩)
            · cases hd
            · cases hd
              rw [h2] at h3
              cases h3
        · have hsx : s.g.step (.waitOne 0 o) = Group.St.wonBy s.g 0 i := hst.trans h1
          obtain ⟨h2, -, h4⟩ := won (w := 0) hm hmo
          have h2' : (s.g.step (.waitOne 0 o)).wait = none := by rw [hsx]; exact h2
          have hmm : m ∈ s.g.members := List.mem_iff_getElem?.2 ⟨i, hm⟩
          have hid : s.g.ids[i]? = some m.id := by simp [Group.St.ids, hm]
          have hout : m.out = outcome m.id es := by rw [k.inv.out m hmm, k.out]
          rcases h4 with ⟨y, hy, h5, -⟩ | ⟨hy, h5, -⟩
          · rw [waited_err (s := { s with ph := .top, g := s.g.step (.waitOne 0 o) }) (w := 0) (x := y) (l := s.g.log) h2'
              (by show (s.g.step _).log = _; rw [hsx]; exact h5)]
            simp only [Ph.failed.injEq]
            constructor
            · rintro rfl
              exact .inr ⟨trivial, by omega, o, i, m.id, rfl, hfi, hid, by rw [← hout, hy]⟩
            · rintro (⟨hd, -⟩ | ⟨-, -, o', j, c, hd, h6, h7, h8⟩)
              · cases hd
              · cases hd
                rw [hfi] at h6
                cases h6
                rw [hid] at h7
                cases h7
                rw [← hout, hy] at h8
                simpa using h8
          · rw [waited_ok (s := { s with ph := .top, g := s.g.step (.waitOne 0 o) }) (w := 0) (l := s.g.log) h2'
              (by show (s.g.step _).log = _; rw [hsx]; exact h5)]
            constructor
            · intro hd
              exfalso
              have hd' : s.kind.next = .failed x := hd
              cases hk : s.kind <;> rw [hk] at hd' <;> cases hd'
            · rintro (⟨hd, -⟩ | ⟨-, -, o', j, c, hd, h6, h7, h8⟩)
              · cases hd
              · cases hd
                rw [hfi] at h6
                cases h6
                rw [hid] at h7
                cases h7
                rw [← hout, hy] at h8
                cases h8
      · rw [if_neg hf]
        constructor
        · intro hd; cases hd
        · rintro (⟨hd, -⟩ | ⟨-, hd, -⟩)
          · cases hd
          · exact absurd ((full_iff k.le).2 (by omega)) hf
    | accept =>
      dsimp only
      constructor
      · intro hd
        exfalso
        split at hd
        · rw [hph] at hd; cases hd
        · cases hd
      · rintro (⟨hd, -⟩ | ⟨hd, -⟩) <;> cases hd
    | one => unfold St.ok at hx'; rw [hph] at hx'; cases hx'
    | failed y => exact absurd hph (ha y)

/-- A session that has failed while the server was not full is reported when it is. -/
example : Legal { kind := .ticker, lim := 2 }
      [.connect, .connect, .turn [], .turn [], .finish 0 (.err 5), .turn [], .turn [], .turn [1, 0]] ∧
    (run .ticker 2 [.connect, .connect, .turn [], .turn [], .finish 0 (.err 5), .turn [], .turn []]).alive ∧
    (run .ticker 2 [.connect, .connect, .turn [], .turn [], .finish 0 (.err 5), .turn [], .turn [], .turn [1, 0]]).ph =
      .failed 5 := by
  refine ⟨by decide, fun x => ?_, by decide⟩
  have : (run .ticker 2 [.connect, .connect, .turn [], .turn [], .finish 0 (.err 5), .turn [], .turn []]).ph = .top := by decide
  rw [this]; simp

/-- If no session fails, neither does the server. -/
theorem C106_alive (kind : Kind) (lim : Nat) (hl : 0 < lim) (es : List Ev) (hg : Legal { kind, lim } es)
    (hok : ∀ c x, outcome c es ≠ some (.err x)) : (run kind lim es).alive := by
  have key : ∀ l : List Ev, Legal { kind, lim } l.reverse → (∀ c x, outcome c l.reverse ≠ some (.err x)) →
      (run kind lim l.reverse).alive := by
    intro l
    induction l with
    | nil => intro _ _ x hx; cases hx
    | cons e l ih =>
      intro hg hok
      rw [List.reverse_cons] at hg hok ⊢
      obtain ⟨hg1, hx⟩ := legal_snoc hg
      have hok1 : ∀ c x, outcome c l.reverse ≠ some (.err x) := by
        intro c x hc
        apply hok c x
        rw [outcome_append, hc]
        rfl
      intro x hf
      rcases (C106_stop_exact kind lim hl _ e hg (ih hg1 hok1) x).1 hf with ⟨-, c, rfl⟩ | ⟨-, -, o, i, c, -, -, -, hc⟩
      · obtain ⟨h, k⟩ := K.all hl hg1
        have hcan : (run kind lim l.reverse).g.can (.complete c (.err x)) = true := hx
        obtain ⟨m, hm, hid, hmo⟩ : ∃ m ∈ (run kind lim l.reverse).g.members, m.id = c ∧ m.out = none := by
          simpa [Group.St.can, List.any_eq_true] using hcan
        apply hok c x
        rw [outcome_append]
        have : outcome c l.reverse = none := by rw [← k.out, ← hid, ← k.inv.out m hm, hmo]
        rw [this]
        simp [outcome]
      · exact hok1 c x hc
  have := key es.reverse
  rw [List.reverse_reverse] at this
  exact this hg hok

end Cobalt.Limit
