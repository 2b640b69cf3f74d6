import Verif.Net.Ends
/-! Property C110: a network of coroutines connected by channels, each with one reader and one writer, is
deterministic. -/
namespace Cobalt.Net

/-- **C110**: nothing undefined happens and no assertion of a channel fails. -/
theorem C110_safe (N : Prog) (hN : N.proper) (cap : Nat → Nat) (es : List Ev) (c : Nat) :
    ((run N cap es).ch c).ub = false ∧ ((run N cap es).ch c).asserted = false :=
  ⟨((NI.run hN cap es).link c).ci.j.ub, ((NI.run hN cap es).link c).ci.j.noAss⟩

/-- **C110**: the reads of a channel obtain the values written to it, in order and each once, and then, if the writer
has closed it, the error `broken_pipe`. The last value may be that of a write that is still under way. -/
theorem C110_stream (N : Prog) (hN : N.proper) (cap : Nat → Nat) (es : List Ev) (c p q : Nat) (hp : N.rd c = p)
    (hq : N.wr c = q) :
    ∃ k e, received (N.act p) c ((run N cap es).hist p) =
        ((sent c (done (N.act q) ((run N cap es).hist q) ++ [N.act q ((run N cap es).hist q)])).take k).map Res.val
          ++ List.replicate e .broken ∧
      (e ≠ 0 → Act.close c ∈ done (N.act q) ((run N cap es).hist q) ∧
        k = (sent c (done (N.act q) ((run N cap es).hist q))).length) := by
  have i := NI.run hN cap es
  generalize run N cap es = s at *
  have li := i.link c
  unfold LiAt at li
  obtain ⟨e, he, hel⟩ := li.got
  rw [li.no_newly, List.append_nil, hp] at he
  have hd := li.delivered
  rw [hq] at hd
  obtain ⟨t, ht⟩ := sent_mono c (started_offered N s q)
  obtain ⟨u, hu⟩ := sent_wrote c (started N s q)
  have hv := i.vals c
  rw [hq] at hv
  have hcl : (s.ch c).closed = true → Act.close c ∈ done (N.act q) (s.hist q) := by
    intro h
    have h1 := (i.shut c).1 h
    rw [hq] at h1
    unfold started at h1
    cases hpos : s.pos q with
    | idle => rw [hpos, begun_idle] at h1; exact h1
    | reading c' k =>
      rw [hpos, begun_busy _ _ (by simp), i.atR _ _ _ hpos] at h1
      simpa using h1
    | writing c' k =>
      obtain ⟨v, ha⟩ := i.atW _ _ _ hpos
      rw [hpos, begun_busy _ _ (by simp), ha] at h1
      simpa using h1
  refine ⟨(Chan.delivered (s.ch c).log).length, e, ?_, ?_⟩
  · rw [he]
    congr 1
    show vmap _ _ = ((sent c (offered N s q)).take _).map Res.val
    rw [← ht, List.take_append_of_le_length hd.2, hv, ← hu]
    have : vmap (sent c (started N s q) ++ u) (Chan.delivered (s.ch c).log) =
        ((Chan.delivered (s.ch c).log).map fun w => (sent c (started N s q) ++ u).getD w 0).map Res.val := by
      simp [vmap]
    rw [this]
    congr 1
    rw [hd.1, Pipe.map_range_getD _ _ (by rw [List.length_append]; omega), List.length_range,
      List.take_append_of_le_length hd.2]
  · intro h
    obtain ⟨h1, h2⟩ := hel h
    have h3 := hcl h1
    refine ⟨h3, ?_⟩
    rw [h2, hq, sent_closed c (done_started N s q) h3]

/-- **C110**: what comes of an operation. No coroutine does anything after it has stopped, writes fail only if the writer
has closed the channel, nothing is aborted. -/
theorem C110_results (N : Prog) (hN : N.proper) (cap : Nat → Nat) (es : List Ev) (p : Nat) :
    fits (N.act p) ((run N cap es).hist p) := by
  intro l x hl
  have hg := (NI.run hN cap es).good p l x hl
  unfold fit
  unfold okAt at hg
  cases ha : N.act p l with
  | stop => rw [ha] at hg; exact hg
  | close c => rw [ha] at hg; exact hg
  | write c v =>
    rw [ha] at hg
    dsimp only at hg ⊢
    split
    · rename_i h; exact hg.1 h
    · rename_i h; exact hg.2 h
  | read c =>
    dsimp only
    obtain ⟨k, e, h, -⟩ := C110_stream N hN cap es c p _ (hN.read _ _ _ ha) rfl
    have hx : x ∈ received (N.act p) c ((run N cap es).hist p) := by
      apply (received_mono (N.act p) c hl).subset
      rw [received_snoc, if_pos ha]
      simp
    rw [h] at hx
    rcases List.mem_append.1 hx with hx | hx
    · obtain ⟨v, -, hv⟩ := List.mem_map.1 hx
      exact .inl ⟨v, hv.symm⟩
    · exact .inr (List.eq_of_mem_replicate hx)

/-- **C110**, the main statement: whatever the executor does, and whatever the limits of the channels are, a coroutine
sees the same; in one of two histories it has only got further. -/
theorem C110_determined (N : Prog) (hN : N.proper) (cap cap' : Nat → Nat) (es es' : List Ev) (p : Nat) :
    (run N cap es).hist p <+: (run N cap' es').hist p ∨ (run N cap' es').hist p <+: (run N cap es).hist p :=
  comparable hN (NI.run hN cap' es') cap es p

/-- **C110**: if in one history the network comes to rest, then every coroutine has got as far there as in any other
history, also as in any with smaller limits. -/
theorem C110_rest (N : Prog) (hN : N.proper) (cap cap' : Nat → Nat) (hc : ∀ c, cap c ≤ cap' c) (es es' : List Ev)
    (hr : (run N cap' es').rest N) (p : Nat) : (run N cap es).hist p <+: (run N cap' es').hist p :=
  rest_max hN (NI.run hN cap' es') hr (fun c => by rw [run_cap]; exact hc c) es p

/-- **C110**: where the network comes to rest does not depend on the executor. -/
theorem C110_unique (N : Prog) (hN : N.proper) (cap : Nat → Nat) (es es' : List Ev) (hr : (run N cap es).rest N)
    (hr' : (run N cap es').rest N) (p : Nat) : (run N cap es).hist p = (run N cap es').hist p := by
  have h1 := C110_rest N hN cap cap (fun _ => Nat.le_refl _) es es' hr' p
  have h2 := C110_rest N hN cap cap (fun _ => Nat.le_refl _) es' es hr p
  exact h1.eq_of_length (Nat.le_antisymm h1.length_le h2.length_le)

/-- **C110**: a network at rest stays at rest: nothing comes of anything any more. -/
theorem C110_final (N : Prog) (hN : N.proper) (cap : Nat → Nat) (es more : List Ev) (hr : (run N cap es).rest N)
    (p : Nat) : (run N cap (es ++ more)).hist p = (run N cap es).hist p := by
  have h1 := C110_rest N hN cap cap (fun _ => Nat.le_refl _) (es ++ more) es hr p
  have h2 := hist_mono N cap es more p
  exact h1.eq_of_length (Nat.le_antisymm h1.length_le h2.length_le)

/-- **C110**: if the network comes to rest in one history, then there is no endless one, with the same limits or smaller
ones: the events that do anything are at most so many. -/
theorem C110_ends (N : Prog) (hN : N.proper) (cap cap' : Nat → Nat) (hc : ∀ c, cap c ≤ cap' c) (es' : List Ev)
    (hr : (run N cap' es').rest N) : ∃ m, ∀ es, (St.init cap).usefuls N es → es.length ≤ m :=
  ⟨_, fun es hu => Nat.le_trans (Nat.le_add_right _ _) (usefuls_bound hN (.of_rest hN hc hr) [] es hu)⟩

/-- **C110**: … and every history can be continued until the network is at rest. -/
theorem C110_reaches (N : Prog) (hN : N.proper) (cap cap' : Nat → Nat) (hc : ∀ c, cap c ≤ cap' c) (es' : List Ev)
    (hr : (run N cap' es').rest N) (es : List Ev) : ∃ more, (run N cap (es ++ more)).rest N :=
  reaches hN (.of_rest hN hc hr) es

/-- **C110**: if there are finitely many coroutines and each stops after some number of operations in any case, then the
network comes to rest, whatever the executor does. -/
theorem C110_stops (N : Prog) (hN : N.proper) (cap l : Nat → Nat) (b : Nat)
    (hl : ∀ p h, l p ≤ h.length → N.act p h = .stop) (hb : ∀ p, b ≤ p → l p = 0) :
    (∃ m, ∀ es, (St.init cap).usefuls N es → es.length ≤ m) ∧ ∀ es, ∃ more, (run N cap (es ++ more)).rest N :=
  ⟨⟨_, fun es hu => Nat.le_trans (Nat.le_add_right _ _) (usefuls_bound hN (.of_bound hN cap hl hb) [] es hu)⟩,
    reaches hN (.of_bound hN cap hl hb)⟩

/-- **C110**: a network is at rest if and only if no event does anything. -/
theorem C110_rest_iff (N : Prog) (s : St) : s.rest N ↔ ∀ e, ¬ s.useful N e := by
  constructor
  · intro h e hu
    cases e with
    | go p b => exact hu.2 (h.2 p hu.1)
    | run c k =>
      have hu : k < (s.ch c).posted.length := hu
      rw [h.1 c] at hu; simp at hu
  · intro h
    apply Classical.byContradiction
    intro hn
    obtain ⟨e, he⟩ := not_rest hn
    exact h e he

/-- **C110**: why a coroutine does not go on when the network is at rest. It has nothing more to do, or it reads from
a channel that is not closed and of which it has had all values, or it writes to one that is not closed and holds as many
values as it can. -/
theorem C110_why (N : Prog) (hN : N.proper) (cap : Nat → Nat) (es : List Ev) (hr : (run N cap es).rest N) (p : Nat) :
    N.act p ((run N cap es).hist p) = .stop ∨
    (∃ c, N.act p ((run N cap es).hist p) = .read c ∧
      Act.close c ∉ done (N.act (N.wr c)) ((run N cap es).hist (N.wr c)) ∧
      received (N.act p) c ((run N cap es).hist p) =
        (sent c (done (N.act (N.wr c)) ((run N cap es).hist (N.wr c)))).map .val) ∨
    (∃ c v, N.act p ((run N cap es).hist p) = .write c v ∧ Act.close c ∉ done (N.act p) ((run N cap es).hist p) ∧
      (sent c (done (N.act p) ((run N cap es).hist p))).length =
        (received (N.act (N.rd c)) c ((run N cap es).hist (N.rd c))).length + cap c) := by
  have i := NI.run hN cap es
  have hcap := run_cap N cap es
  generalize run N cap es = s at *
  cases hp : s.pos p with
  | idle => exact .inl (hr.2 p hp)
  | reading c k =>
    right; left
    have ha := i.atR _ _ _ hp
    have hrd := hN.read _ _ _ ha
    obtain ⟨n1, n2⟩ := i.restR hN (hr.1 c) hp
    have hno : Act.close c ∉ done (N.act (N.wr c)) (s.hist (N.wr c)) := fun h => n1 ((done_started N s _).subset h)
    refine ⟨c, ha, hno, ?_⟩
    have li := i.link c
    unfold LiAt at li
    have hcl : (s.ch c).closed = false := by
      cases h : (s.ch c).closed with
      | false => rfl
      | true => exact absurd ((i.shut c).1 h) n1
    -- the writer does not write to the channel: it would have found the reader
    have hw : sent c (started N s (N.wr c)) = sent c (done (N.act (N.wr c)) (s.hist (N.wr c))) := by
      unfold started
      cases hq : s.pos (N.wr c) with
      | idle => rw [begun_idle]
      | reading c' k' =>
        rw [begun_busy _ _ (by simp), i.atR _ _ _ hq, sent_snoc]; simp
      | writing c' k' =>
        obtain ⟨v, ha'⟩ := i.atW _ _ _ hq
        rw [begun_busy _ _ (by simp), ha', sent_snoc]
        by_cases hc : c' = c
        · exfalso
          subst hc
          rw [hrd, hp, hq] at li
          have e1 : (At.reading c' k).rdOn c' = some k := by simp [At.rdOn]
          have e2 : (At.writing c' k').wrOn c' = some k' := by simp [At.wrOn]
          rw [e1, e2] at li
          have h1 := li.inRq (hr.1 c')
          have h2 := li.inWq (hr.1 c')
          rcases li.ci.h.excl with h3 | h3
          · rw [h3] at h1; cases h1
          · rw [h3] at h2; cases h2
        · simp [hc]
    obtain ⟨e, he, hel⟩ := li.got
    have he0 : e = 0 := Classical.byContradiction fun h => by have := (hel h).1; rw [hcl] at this; cases this
    subst he0
    rw [li.no_newly, List.append_nil, hrd] at he
    have hlen := congrArg List.length he
    rw [received_length] at hlen
    have hd := li.delivered
    simp only [List.replicate_zero, List.append_nil, vmap, List.length_map] at hlen he
    rw [he, hd.1, i.vals c]
    obtain ⟨u, hu⟩ := sent_wrote c (started N s (N.wr c))
    have : (List.range (Chan.delivered (s.ch c).log).length).map
        (fun w => Res.val ((wrote c (started N s (N.wr c))).getD w 0)) =
        ((List.range (Chan.delivered (s.ch c).log).length).map fun w => (wrote c (started N s (N.wr c))).getD w 0).map
          Res.val := by simp
    rw [this, ← hu, Pipe.map_range_getD _ _ (by rw [List.length_append]; omega),
      List.take_append_of_le_length hd.2, ← hlen, ← n2, List.take_length, hw]
  | writing c k =>
    right; right
    obtain ⟨v, ha⟩ := i.atW _ _ _ hp
    have hwr := hN.write _ _ _ _ ha
    obtain ⟨n1, n2⟩ := i.restW hN (hr.1 c) hp
    rw [hwr] at n1
    have hno : Act.close c ∉ done (N.act p) (s.hist p) := fun h => n1 ((done_started N s _).subset h)
    refine ⟨c, v, ha, hno, ?_⟩
    rw [(sent_shut c (done (N.act p) (s.hist p))).resolve_right hno, n2, received_length, hcap]
    congr 1
    -- the reader does not read from the channel: it would have found the writer
    unfold started
    cases hq : s.pos (N.rd c) with
    | idle => rw [begun_idle]
    | writing c' k' =>
      obtain ⟨v', ha'⟩ := i.atW _ _ _ hq
      rw [begun_busy _ _ (by simp), ha', nreads_snoc]; simp
    | reading c' k' =>
      have ha' := i.atR _ _ _ hq
      rw [begun_busy _ _ (by simp), ha', nreads_snoc]
      by_cases hc : c' = c
      · exfalso
        subst hc
        have li := i.link c'
        unfold LiAt at li
        rw [hwr, hp, hq] at li
        have e1 : (At.reading c' k').rdOn c' = some k' := by simp [At.rdOn]
        have e2 : (At.writing c' k).wrOn c' = some k := by simp [At.wrOn]
        rw [e1, e2] at li
        have h1 := li.inRq (hr.1 c')
        have h2 := li.inWq (hr.1 c')
        rcases li.ci.h.excl with h3 | h3
        · rw [h3] at h1; cases h1
        · rw [h3] at h2; cases h2
      · simp [hc]

/-! ## Examples -/

/-- Coroutine 0 writes 1 and 2 to channel 0 and closes it. Coroutine 1 reads from channel 0 and writes what it gets, plus
10, to channel 1, until channel 0 is at its end; then it closes channel 1. Coroutine 2 reads from channel 1 until that is
at its end. -/
def line : Prog where
  act := fun p h =>
    if p = 0 then (match h.length with | 0 => .write 0 1 | 1 => .write 0 2 | 2 => .close 0 | _ => .stop)
    else if p = 1 then
      (match h.getLast? with
        | none => .read 0
        | some (.val v) => .write 1 (v + 10)
        | some .broken => .close 1
        | _ => if Res.broken ∈ h then .stop else .read 0)
    else if p = 2 then (if Res.broken ∈ h then .stop else .read 1)
    else .stop
  rd := fun c => c + 1
  wr := fun c => c

theorem line_proper : line.proper := by
  constructor
  all_goals
    intro p h c
    simp only [line]
    repeat' split
    all_goals (intros; rename_i hh; cases hh <;> first | rfl | omega)

/-- A channel without a buffer and one with room for a value. The consumer begins. -/
def lineEvs : List Ev :=
  [.go 2 false, .go 1 false, .go 0 false, .run 0 0, .go 0 false, .go 1 false, .run 1 0, .go 2 false, .go 1 false, .run 0 0,
   .go 0 false, .go 1 false, .run 1 0, .go 2 false, .go 1 false, .run 0 0, .go 1 false, .run 1 0]

example : (run line (fun c => c) lineEvs).hist 0 = [.ok, .ok, .ok] := by decide
example : (run line (fun c => c) lineEvs).hist 1 = [.val 1, .ok, .val 2, .ok, .broken, .ok] := by decide
example : (run line (fun c => c) lineEvs).hist 2 = [.val 11, .val 12, .broken] := by decide

/-- There the network is at rest, so whatever the executor does, coroutine 2 gets no other values. -/
theorem line_rest : (run line (fun c => c) lineEvs).rest line := by
  refine ⟨fun c => ?_, fun p hp => ?_⟩
  · match c with
    | 0 => rfl
    | 1 => rfl
    | c + 2 => rfl
  · match p with
    | 0 => rfl
    | 1 => rfl
    | 2 => rfl
    | p + 3 => rfl

example (es : List Ev) : (run line (fun _ => 0) es).hist 2 <+: [.val 11, .val 12, .broken] :=
  C110_rest line line_proper (fun _ => 0) (fun c => c) (fun _ => Nat.zero_le _) es lineEvs line_rest 2

/-- Nor can it go on for ever, and it comes to that end from wherever it is. -/
example : ∃ m, ∀ es, (St.init fun c => c).usefuls line es → es.length ≤ m :=
  C110_ends line line_proper _ _ (fun _ => Nat.le_refl _) lineEvs line_rest

example (es : List Ev) : ∃ more, (run line (fun c => c) (es ++ more)).hist 2 = [.val 11, .val 12, .broken] := by
  obtain ⟨more, h⟩ := C110_reaches line line_proper (fun c => c) _ (fun _ => Nat.le_refl _) lineEvs line_rest es
  exact ⟨more, C110_unique line line_proper _ _ _ h line_rest 2⟩

/-- Each of two coroutines writes to the other before it reads. -/
def cross : Prog where
  act := fun p h =>
    if p = 0 then (match h.length with | 0 => .write 0 5 | 1 => .read 1 | _ => .stop)
    else if p = 1 then (match h.length with | 0 => .write 1 6 | 1 => .read 0 | _ => .stop)
    else .stop
  rd := fun c => if c = 0 then 1 else 0
  wr := fun c => if c = 0 then 0 else 1

theorem cross_proper : cross.proper := by
  constructor
  all_goals
    intro p h c
    simp only [cross]
    repeat' split
    all_goals (intros; rename_i hh; cases hh <;> first | omega | contradiction)

/-- Each does at most two things, so the network comes to rest. -/
example (cap : Nat → Nat) (es : List Ev) : ∃ more, (run cross cap (es ++ more)).rest cross := by
  refine (C110_stops cross cross_proper cap (fun p => if p < 2 then 2 else 0) 2 ?_ ?_).2 es
  · intro p h hl
    match p with
    | 0 | 1 =>
      match h with
      | [] | [_] => simp at hl
      | _ :: _ :: _ => rfl
    | p + 2 => rfl
  · intro p hp
    exact if_neg (by omega)

/-- Without buffers they wait for each other, whatever the executor does. -/
example : (run cross (fun _ => 0) [.go 0 false, .go 1 false]).rest cross := by
  refine ⟨fun c => ?_, fun p hp => ?_⟩
  · match c with
    | 0 => rfl
    | 1 => rfl
    | c + 2 => rfl
  · match p with
    | 0 => cases hp
    | 1 => cases hp
    | p + 2 => rfl

/-- Room for one value in one of the channels is enough. -/
example : (run cross (fun c => c) [.go 0 false, .go 1 false, .go 1 false, .run 0 0, .go 0 false]).hist 0 = [.ok, .val 6] ∧
    (run cross (fun c => c) [.go 0 false, .go 1 false, .go 1 false, .run 0 0, .go 0 false]).hist 1 = [.ok, .val 5] := by
  decide

/-! ## What is needed -/

/-- Coroutine 0 writes to a channel, coroutine 1 reads from it and coroutine 2, which does not write to it, closes it. -/
def meddle : Prog where
  act := fun p h =>
    if h ≠ [] then .stop
    else if p = 0 then .write 0 7 else if p = 1 then .read 0 else if p = 2 then .close 0 else .stop
  rd := fun _ => 1
  wr := fun _ => 0

/-- **C110** needs that only the writer closes a channel: if somebody else does, it depends on the executor what the
others see. -/
theorem C110_close_needed : ∃ (es es' : List Ev) (cap : Nat → Nat),
    (run meddle cap es).rest meddle ∧ (run meddle cap es').rest meddle ∧
    (run meddle cap es).hist 1 = [.val 7] ∧ (run meddle cap es').hist 1 = [.broken] := by
  refine ⟨[.go 0 false, .go 1 false, .go 2 false], [.go 2 false, .go 1 false, .go 0 false], fun _ => 1,
    ⟨fun c => ?_, fun p hp => ?_⟩, ⟨fun c => ?_, fun p hp => ?_⟩, by decide, by decide⟩
  · match c with
    | 0 => rfl
    | c + 1 => rfl
  · match p with
    | 0 => rfl
    | 1 => rfl
    | 2 => rfl
    | p + 3 => rfl
  · match c with
    | 0 => rfl
    | c + 1 => rfl
  · match p with
    | 0 => rfl
    | 1 => rfl
    | 2 => rfl
    | p + 3 => rfl

end Cobalt.Net
