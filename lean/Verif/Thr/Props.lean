import Verif.Thr.Lemmas
/-!
# Properties of awaiting a thread
-/
namespace Cobalt.Thr

/-! ## C46: the wake-up is never lost -/

/-- The property C46 as stated, for `co_await t` and `co_await std::move(t)`: whatever the
schedule, once both threads had enough turns the awaiter has got the outcome of the thread,
once. (`as_tuple` and threads that were joined are C47.) -/
def C46 : Prop := ∀ (c : Cfg) (sched : List Who) (n : Nat), c.tag ≠ .tuple → c.join ≠ .joined → 15 ≤ n →
  (St.run c (sched ++ rounds n)).got = [expect c.out] ∧ (St.run c (sched ++ rounds n)).term = false

/-- At every moment the awaiter has got at most one result. -/
theorem C46_once (c : Cfg) (sched : List Who) : (St.run c sched).got.length ≤ 1 := by
  have i := Inv.run c sched
  by_cases h : (St.run c sched).apc = .fin
  · rcases i.fin h with ⟨_, h⟩ | ⟨_, h⟩
    · rw [h]; simp
    · omega
  · rw [(i.nofin h).2]; simp

theorem over_fin {c : Cfg} {s : St} (i : Inv c s) (h : s.Over) (ht : s.term = false) (hu : s.ub = false) :
    ∃ g, s.got = [g] := by
  rcases h with h | h | ⟨h, _⟩
  · rw [ht] at h; cases h
  · rw [hu] at h; cases h
  · rcases i.fin h with ⟨h, _⟩ | ⟨_, h⟩
    · rw [hu] at h; cases h
    · exact List.length_eq_one_iff.1 h

/-- The statement for threads that end without an exception. Missing: threads that end by an
exception before the awaiter has registered itself, see `C46_violated`; `C46_waiting` is the
statement for those that do so later. -/
theorem C46_partial (c : Cfg) (sched : List Who) (n : Nat) (ht : c.tag ≠ .tuple)
    (hj : c.join ≠ .joined) (ho : c.out = none) (hn : 15 ≤ n) :
    (St.run c (sched ++ rounds n)).got = [expect c.out] ∧
    (St.run c (sched ++ rounds n)).term = false := by
  have i := Inv.run c (sched ++ rounds n)
  have hov := run_over c sched n hn
  have h1 : (St.run c (sched ++ rounds n)).term = false := by
    cases h : (St.run c (sched ++ rounds n)).term
    · rfl
    · exact absurd ho (i.trm h).1
  have h2 : (St.run c (sched ++ rounds n)).ub = false := by
    cases h : (St.run c (sched ++ rounds n)).ub
    · rfl
    · exact absurd (i.ubt h).1 ht
  obtain ⟨g, hg⟩ := over_fin i hov h1 h2
  refine ⟨?_, h1⟩
  rw [hg, ho]
  rcases i.val g hg with ⟨h, _⟩ | ⟨_, ⟨_, h⟩ | ⟨_, _, h⟩⟩
  · exact absurd h hj
  · rw [h, ho]
  · rw [h]; rfl

example : (⟨.plain, .join, none⟩ : Cfg).tag ≠ .tuple ∧ (⟨.plain, .join, none⟩ : Cfg).join ≠ .joined ∧
    (⟨.plain, .join, none⟩ : Cfg).out = none := by decide

/-- Once the awaiter is suspended it gets the outcome, an exception too, whatever happens
after. -/
theorem C46_waiting (c : Cfg) (sched rest : List Who) (n : Nat)
    (hw : (St.run c sched).apc = .waiting) (hj : c.join ≠ .joined)
    (ht : (St.run c sched).term = false) (hn : 15 ≤ n) :
    (St.run c (sched ++ rest ++ rounds n)).got = [expect c.out] ∧
    (St.run c (sched ++ rest ++ rounds n)).term = false := by
  have i := Inv.run c (sched ++ rest ++ rounds n)
  have hov := run_over c (sched ++ rest) n hn
  have i0 := Inv.run c sched
  have hc : (St.run c sched).Caught := ⟨.inl hw, ht, (i0.nofin (by rw [hw]; decide)).1⟩
  have hc' : (St.run c (sched ++ rest ++ rounds n)).Caught := by
    have := Caught.foldl (rest ++ rounds n) i0 hc
    unfold St.run at this ⊢
    rwa [← List.foldl_append, ← List.append_assoc] at this
  obtain ⟨h0, h1, h2⟩ := hc'
  obtain ⟨g, hg⟩ := over_fin i hov h1 h2
  refine ⟨?_, h1⟩
  have hr : (St.run c (sched ++ rest ++ rounds n)).res ≠ none := by
    rcases h0 with h0 | h0
    · have := (i.nofin (by rw [h0]; decide)).2
      rw [hg] at this; cases this
    · exact h0
  rw [hg]
  rcases i.val g hg with ⟨h, _⟩ | ⟨_, ⟨_, h⟩ | ⟨h, _⟩⟩
  · exact absurd h hj
  · rw [h]
  · exact absurd h hr

example : (St.run ⟨.tuple, .no, some 7⟩ [.A, .A, .A, .A, .A, .F, .A, .F, .A]).apc = .waiting ∧
    (St.run ⟨.tuple, .no, some 7⟩ [.A, .A, .A, .A, .A, .F, .A, .F, .A]).term = false := by decide

/-- If the thread ends by an exception the awaiter of `std::move(t)` gets that exception, or
the process terminates; it is not told that all went well. -/
theorem C46_moved (c : Cfg) (sched : List Who) (x : Nat) (ho : c.out = some x) (hj : c.join = .join)
    (hu : (St.run c sched).ub = false) :
    (St.run c sched).got = [] ∨ (St.run c sched).got = [.exn x] := by
  have key : ∀ (l : List Who) (s : St), Inv c s → (s.got = [] ∨ s.got = [.exn x] ∨ s.ub = true) →
      ((l.foldl (St.step c) s).got = [] ∨ (l.foldl (St.step c) s).got = [.exn x] ∨
        (l.foldl (St.step c) s).ub = true) := by
    intro l
    induction l with
    | nil => exact fun _ _ h => h
    | cons w l ih =>
      intro s i h
      refine ih _ (i.step w) ?_
      have hi := i.step w
      unfold St.step at hi ⊢
      split
      · exact h
      · rename_i hn
        rw [if_neg hn] at hi
        cases w
        · have i' := i
          obtain ⟨done, owner, waitor, posted, res, apc, fpc, term, ub, got⟩ := s
          obtain ⟨h1, h2, h3, h4, h5, h6, h7, h8, h9, h10, h11, h12, h13, h14, h15, h16, h17, h18⟩ := i
          clear hi i' ih
          cases apc <;> simp only [stepA, result, hj]
          all_goals (repeat' split)
          all_goals (simp only at *)
          all_goals (grind [expect])
        · have : (stepF c s).got = s.got ∧ (stepF c s).ub = s.ub := by
            unfold stepF
            repeat' split
            all_goals exact ⟨rfl, rfl⟩
          simp only [this]
          exact h
  rcases key sched {} (Inv.init c) (.inl rfl) with h | h | h
  · exact .inl h
  · exact .inr h
  · unfold St.run at hu; rw [hu] at h; cases h

example : (St.run ⟨.plain, .join, some 3⟩ ([.A, .A, .A, .A, .A, .A, .A] ++ rounds 15)).got = [.exn 3] ∧
    (St.run ⟨.plain, .join, some 3⟩ ([.A, .A, .A, .A, .A, .A, .A] ++ rounds 15)).ub = false := by decide

/-- The thread throws and sets `done`; the awaiter finds it set and goes on as if all were
well; then the thread finds nobody waiting and terminates the process. -/
theorem C46_violated : ¬ C46 := by
  intro h
  have := h ⟨.plain, .no, some 7⟩ [.F, .A, .A, .A, .A] 15 (by decide) (by decide) (by decide)
  revert this
  decide

/-- In that run the awaiter is told of success before. -/
theorem C46_violated_success :
    (St.run ⟨.plain, .no, some 7⟩ [.F, .A, .A, .A, .A]).got = [.ok] := by decide

/-- The awaiter was suspended at some moment. -/
def Waited (c : Cfg) (l : List Who) : Prop := ∃ k, (St.run c (l.take k)).apc = .waiting

theorem caught_got {c : Cfg} {s : St} (i : Inv c s) (ho : s.Over) (hc : s.Caught) (hj : c.join ≠ .joined) :
    s.got = [expect c.out] ∧ s.term = false ∧ s.ub = false := by
  obtain ⟨h0, h1, h2⟩ := hc
  obtain ⟨g, hg⟩ := over_fin i ho h1 h2
  refine ⟨?_, h1, h2⟩
  rw [hg]
  have hr : s.res ≠ none := by
    rcases h0 with h0 | h0
    · have := (i.nofin (by rw [h0]; decide)).2
      rw [hg] at this; cases this
    · exact h0
  rcases i.val g hg with ⟨h, _⟩ | ⟨_, ⟨_, h⟩ | ⟨h, _⟩⟩
  · exact absurd h hj
  · rw [h]
  · exact absurd h hr

/-- C46, exactly: the awaiter gets the outcome and the process goes on iff the thread ends without an exception or
the awaiter was suspended. -/
theorem C46_exact (c : Cfg) (sched : List Who) (n : Nat) (ht : c.tag ≠ .tuple) (hj : c.join ≠ .joined) (hn : 15 ≤ n) :
    ((St.run c (sched ++ rounds n)).got = [expect c.out] ∧ (St.run c (sched ++ rounds n)).term = false) ↔
      c.out = none ∨ Waited c (sched ++ rounds n) := by
  have i := Inv.run c (sched ++ rounds n)
  have hov := run_over c sched n hn
  constructor
  · rintro ⟨hg, htm⟩
    by_cases ho : c.out = none
    · exact .inl ho
    right
    apply run_waiting
    have hu : (St.run c (sched ++ rounds n)).ub = false := by
      cases h : (St.run c (sched ++ rounds n)).ub
      · rfl
      · exact absurd (i.ubt h).1 ht
    have hf : (St.run c (sched ++ rounds n)).fpc = .fin := by
      rcases hov with h | h | h
      · rw [htm] at h; cases h
      · rw [hu] at h; cases h
      · exact h.2
    rcases i.past (.inr hf) ho with h | h
    · exact .inl h
    · exact .inr (i.pst.1 h).1
  · rintro (ho | ⟨k, hk⟩)
    · exact C46_partial c sched n ht hj ho hn
    · have := caught_got i hov (run_caught hk) hj
      exact ⟨this.1, this.2.1⟩

/-! ## C47: `as_tuple`, finished threads, and awaiting twice -/

/-- The property C47 as stated: for all tags and whenever the thread ends, also before the
await and with `join()` called before, the outcome is read without undefined behaviour. -/
def C47 : Prop := ∀ (c : Cfg) (sched : List Who) (n : Nat), c.out = none → 15 ≤ n →
  (St.run c (sched ++ rounds n)).ub = false ∧ (St.run c (sched ++ rounds n)).got = [.ok]

/-- Undefined behaviour happens only with `as_tuple` (and then if the thread ended before the
awaiter was suspended, see `C46_waiting`). Missing: that case and threads joined before. -/
theorem C47_partial (c : Cfg) (sched : List Who) (h : c.tag ≠ .tuple) :
    (St.run c sched).ub = false := by
  cases hu : (St.run c sched).ub
  · rfl
  · exact absurd ((Inv.run c sched).ubt hu).1 h

example : (⟨.result, .joined, some 1⟩ : Cfg).tag ≠ .tuple := by decide

/-- `as_tuple` of a thread that has ended dereferences an empty optional, always. -/
theorem C47_tuple (j : Join) (hj : j ≠ .joined) (out : Option Nat) (rest : List Who)
    (ho : out = none) :
    (St.run ⟨.tuple, j, out⟩ ([.F, .F, .F, .F, .F, .A, .A, .A, .A] ++ rest)).ub = true := by
  subst ho
  unfold St.run
  rw [List.foldl_append]
  have h : (List.foldl (St.step ⟨.tuple, j, none⟩) {} [.F, .F, .F, .F, .F, .A, .A, .A, .A]).ub = true := by
    cases j
    · decide
    · decide
    · exact absurd rfl hj
  rw [Over.foldl rest (.inr (.inl h))]
  exact h

/-- `as_tuple` of a finished thread. -/
theorem C47_violated : ¬ C47 := by
  intro h
  have := (h ⟨.tuple, .no, none⟩ [.F, .F, .F, .F, .F, .A, .A, .A, .A] 15 rfl (by decide)).1
  rw [C47_tuple .no (by decide) none _ rfl] at this
  cases this

/-- Awaiting `std::move(t)` after `t.join()` throws `std::system_error`, whatever the
outcome. -/
theorem C47_joined (c : Cfg) (sched : List Who) (g : Got) (h : c.join = .joined)
    (hg : (St.run c sched).got = [g]) : g = .notJoinable := by
  rcases (Inv.run c sched).val g hg with ⟨_, h'⟩ | ⟨h', _⟩
  · exact h'
  · exact absurd h h'

theorem C47_violated_joined :
    (St.run ⟨.plain, .joined, none⟩ (rounds 15)).got = [.notJoinable] := by decide

/-- C47, exactly, for threads that end without an exception: the outcome is read without undefined behaviour iff the
thread was not joined before, and the awaiter was suspended if it used `as_tuple`. -/
theorem C47_exact (c : Cfg) (sched : List Who) (n : Nat) (ho : c.out = none) (hn : 15 ≤ n) :
    ((St.run c (sched ++ rounds n)).ub = false ∧ (St.run c (sched ++ rounds n)).got = [.ok]) ↔
      c.join ≠ .joined ∧ (c.tag ≠ .tuple ∨ Waited c (sched ++ rounds n)) := by
  have i := Inv.run c (sched ++ rounds n)
  have hov := run_over c sched n hn
  constructor
  · rintro ⟨hu, hg⟩
    have hj : c.join ≠ .joined := by
      intro hj
      have := C47_joined c _ .ok hj hg
      cases this
    refine ⟨hj, ?_⟩
    by_cases ht : c.tag = .tuple
    · right
      apply run_waiting
      left
      rcases i.val _ hg with ⟨h, _⟩ | ⟨_, ⟨h, _⟩ | ⟨_, h, _⟩⟩
      · exact absurd h hj
      · exact h
      · exact absurd ht h
    · exact .inl ht
  · rintro ⟨hj, ht | ⟨k, hk⟩⟩
    · have h1 := C46_partial c sched n ht hj ho hn
      rw [ho] at h1
      exact ⟨C47_partial c _ ht, h1.1⟩
    · have := caught_got i hov (run_caught hk) hj
      rw [ho] at this
      exact ⟨this.2.2, this.1⟩

example : Waited ⟨.tuple, .no, none⟩ ([.A, .A, .A, .A, .A, .F, .A, .F, .A] ++ rounds 15) :=
  ⟨9, by decide⟩

/-! ### Operations on the object -/

theorem ops_no_state : ∀ (l : List Op) (o : Obj), o.state = false →
    ∀ r ∈ o.ops l, ∀ j, r ≠ .awaits j := by
  intro l
  induction l with
  | nil => intro o _ r hr; cases hr
  | cons a l ih =>
    intro o ho r hr j
    simp only [Obj.ops, List.mem_cons] at hr
    rcases hr with rfl | hr
    · cases a <;> simp only [Obj.op, ho] <;> (repeat' split) <;> simp
      all_goals (simp_all)
    · refine ih (o.op a).1 ?_ r hr j
      cases a <;> simp only [Obj.op, ho] <;> (repeat' split) <;> simp_all

/-- A thread is awaited at most once, whatever is done with the object: after an await every
later one fails without touching the state. -/
theorem C47_second (o : Obj) (pre post : List Op) (a : Op) (ha : a = .awaitL ∨ a = .awaitR)
    (r : OpRes) (hr : r ∈ (o.ops (pre ++ a :: post)).drop (pre.length + 1)) (j : Join) : r ≠ .awaits j := by
  induction pre generalizing o with
  | nil =>
    simp only [List.nil_append, Obj.ops, List.length_nil, Nat.zero_add, List.drop_succ_cons, List.drop_zero] at hr
    refine ops_no_state post _ ?_ r hr j
    rcases ha with rfl | rfl <;> simp [Obj.op]
  | cons b pre ih =>
    simp only [List.cons_append, Obj.ops, List.length_cons, List.drop_succ_cons] at hr
    exact ih _ hr

example : OpRes.expired ∈ (({} : Obj).ops ([] ++ .awaitL :: [.awaitL])).drop 1 := by decide

/-- Awaiting `t` and then `std::move(t)` terminates the process: the second awaitable is
destroyed with the joinable thread. -/
theorem C47_violated_twice : ({} : Obj).ops [.awaitL, .awaitR] = [.awaits .no, .terminate] := by decide

end Cobalt.Thr
