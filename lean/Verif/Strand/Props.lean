import Verif.Strand.Lemmas
/-!
# C121: coroutines on strands can be run by several threads

The full statement: however coroutines are started and on whatever executors, when several
threads run the context no two threads are in the same coroutine at a time, nor in coroutines of
the same strand, and all of them end. It does not hold (`C121_violated`): a coroutine called by a
thread outside of its strand may be resumed by another thread while the first is still in
`await_suspend`.
-/
namespace Cobalt.Strand

/-- Example: `example/thread_pool.cpp`, three coroutines with a strand each, four threads. The
eleven awaits of `work` do not suspend there; here each waits. -/
def pool4 : Cfg where
  nT := 4
  nC := 3
  ex := .strand
  ops := fun _ => 11
  direct := fun _ => none

/-- Example: `test/strand.cpp`, eight coroutines on a strand, each called by a thread of its own. -/
def test8 : Cfg where
  nT := 8
  nC := 8
  ex := fun _ => .strand 0
  ops := fun _ => 1
  direct := some

/-- Two threads may be in the same frame exactly if there are two threads and some coroutine that
waits was not started through its executor, or its executor is not a strand. -/
theorem C121_exact (g : Cfg) (hg : g.Ok) :
    (∃ es s, Runs g g.init es s ∧ s.race = true) ↔
      2 ≤ g.nT ∧ ∃ c, c < g.nC ∧ 0 < g.ops c ∧ (g.direct c ≠ none ∨ g.ex c = .pool) := by
  constructor
  · rintro ⟨es, s, h, hr⟩
    rcases runs_inv h (Inv.init g) with ⟨-, h1⟩ | ⟨-, h1 | h1⟩
    · rw [hr] at h1; exact absurd h1 (by simp)
    · exact absurd h1 (by simp [Cfg.init])
    · exact h1
  · rintro ⟨h2, c, hc, ho, h⟩
    have other : ∀ t, t < g.nT → ∃ u, u < g.nT ∧ u ≠ t := by
      intro t _
      by_cases h0 : t = 0
      · exact ⟨1, by omega, by omega⟩
      · exact ⟨0, by omega, fun h => h0 h.symm⟩
    cases hd : g.direct c with
    | some t =>
      have ht := hg c t hc hd
      obtain ⟨u, hu, hut⟩ := other t ht
      have h1 : g.next g.init (.start t c) = some { g.init with
          w := upd g.init.w c .busy, pc := upd g.init.pc t (.run c false) } := by
        simp [Cfg.next, Cfg.init, ht, hc, hd]
      obtain ⟨s, h3, h4⟩ := to_race (g := g) (s := { g.init with
          w := upd g.init.w c .busy, pc := upd g.init.pc t (.run c false) })
        (t := t) (u := u) (c := c) (i := false) rfl ht hu hut hc (by simp [upd])
        (Nat.pos_iff_ne_zero.1 ho) (by simp [upd, hut, Cfg.init]) (fun _ _ => rfl)
      exact ⟨_, s, .cons rfl h1 h3, h4⟩
    | none =>
      have hx : g.ex c = .pool := by
        rcases h with h | h
        · exact absurd hd h
        · exact h
      have h0 : 0 < g.nT := by omega
      have h1 : g.next g.init (.pick 0 c) = some { g.init with
          w := upd g.init.w c .busy, pc := upd g.init.pc 0 (.run c true)
          held := g.hold g.init c true } := by
        have e1 : g.job g.init c = true := by simp [Cfg.job, Cfg.init, hc, hd]
        have e2 : g.free g.init c = true := by simp [Cfg.free, hx]
        have e3 : g.inside g.init c = false := by
          simp [Cfg.inside, Cfg.init, Pc.suspends]
        have e4 : g.init.pc 0 = .idle := rfl
        simp only [Cfg.next, h0, e1, e2, e3, e4, and_self, if_true, Bool.false_eq_true, if_false]
      obtain ⟨s, h3, h4⟩ := to_race (g := g) (s := { g.init with
          w := upd g.init.w c .busy, pc := upd g.init.pc 0 (.run c true)
          held := g.hold g.init c true })
        (t := 0) (u := 1) (c := c) (i := true) rfl h0 (by omega) (by omega) hc (by simp [upd])
        (Nat.pos_iff_ne_zero.1 ho) (by simp [upd, Cfg.init])
        (fun k hk => by rw [hx] at hk; exact absurd hk (by simp))
      exact ⟨_, s, .cons rfl h1 h3, h4⟩

example : pool4.Ok ∧ test8.Ok :=
  ⟨fun _ _ _ h => absurd h (by simp [pool4]), fun c t hc h => by
    obtain rfl := Option.some.inj h; exact hc⟩

/-- No two threads are in the same coroutine at a time, before a race. -/
theorem C121_one (g : Cfg) (es : List Ev) (s : St) (h : Runs g g.init es s) (hr : s.race = false)
    (t u c : Nat) (h1 : (s.pc t).coro = some c) (h2 : (s.pc u).coro = some c) : t = u := by
  rcases runs_inv h (Inv.init g) with ⟨⟨hi, -⟩, -⟩ | ⟨h3, -⟩
  · exact hi.one t u c h1 h2
  · rw [hr] at h3; exact absurd h3 (by simp)

example : ∃ s, Runs pool4 pool4.init [.pick 2 0, .pick 3 1, .step 2] s ∧ s.race = false ∧
    (s.pc 2).coro = some 0 ∧ (s.pc 3).coro = some 1 :=
  ⟨_, exec_runs _ _ _ rfl, rfl, rfl, rfl⟩

/-- Coroutines of one strand run one at a time, except for those called from outside. -/
theorem C121_strand (g : Cfg) (es : List Ev) (s : St) (h : Runs g g.init es s)
    (hr : s.race = false) (t u c d k : Nat) (h1 : (s.pc t).coro = some c)
    (h2 : (s.pc u).coro = some d) (hc : g.ex c = .strand k) (hd : g.ex d = .strand k)
    (hn : g.direct c = none) (hm : g.direct d = none) : t = u := by
  rcases runs_inv h (Inv.init g) with ⟨⟨hi, -⟩, -⟩ | ⟨h3, -⟩
  · refine hi.excl t u c d k h1 h2 ?_ ?_ hc hd
    · cases hx : (s.pc t).ins with
      | true => rfl
      | false => exact absurd hn (hi.out t c h1 hx)
    · cases hx : (s.pc u).ins with
      | true => rfl
      | false => exact absurd hm (hi.out u d h2 hx)
  · rw [hr] at h3; exact absurd h3 (by simp)

/-- The number of events of a whole run. -/
def Cfg.events (g : Cfg) : Nat := total (fun c => 5 * g.ops c + 2) g.nC

/-- A run without a race that cannot go on has run all coroutines to their end, and every such run
has the same length; none is longer. -/
theorem C121_ends (g : Cfg) (hg : g.Ok) (h0 : 0 < g.nT) (es : List Ev) (s : St)
    (h : Runs g g.init es s) (hr : s.race = false) :
    es.length ≤ g.events ∧
      (Stuck g s → (∀ c, c < g.nC → s.w c = .done ∧ s.left c = 0) ∧ es.length = g.events) := by
  have hi : Inv g s := by
    rcases runs_inv h (Inv.init g) with ⟨⟨hi, -⟩, -⟩ | ⟨h3, -⟩
    · exact hi
    · rw [hr] at h3; exact absurd h3 (by simp)
  have e := runs_todo h (Inv.init g) hr
  have z : total (fun t => pwgt (g.init.pc t)) g.nT = 0 := total_zero _ fun _ _ => rfl
  have e0 : todo g g.init = g.events := by
    simp only [todo, z, Cfg.events, Nat.add_zero]
    rfl
  refine ⟨by omega, fun hs => ?_⟩
  have hd := stuck_done hg h0 hi hs
  refine ⟨fun c hc => ⟨hd c hc, hi.fin c (hd c hc)⟩, ?_⟩
  have z1 : total (fun c => 5 * s.left c + wgt (s.w c)) g.nC = 0 := by
    refine total_zero _ fun c hc => ?_
    have hw := hd c hc
    rw [hw, hi.fin c hw]
    rfl
  have z2 : total (fun t => pwgt (s.pc t)) g.nT = 0 := by
    have hidle : ∀ t, pwgt (s.pc t) = 0 := by
      intro t
      cases hp : s.pc t with
      | idle => rfl
      | run d i => rfl
      | sus1 d i =>
        have ht := (hi.thr t d (by rw [hp]; rfl)).1
        have := hs (.step t)
        simp [Cfg.next, ht, hp, Cfg.go] at this
      | sus2 d i =>
        have ht := (hi.thr t d (by rw [hp]; rfl)).1
        have := hs (.step t)
        simp [Cfg.next, ht, hp, Cfg.go] at this
    exact total_zero _ fun t _ => hidle t
  have e3 : todo g s = 0 := by simp only [todo, z1, z2]
  omega

example : pool4.events = 171 := rfl

/-- Example: a coroutine with one operation, which changes threads. -/
def small : Cfg where
  nT := 2
  nC := 1
  ex := .strand
  ops := fun _ => 1
  direct := fun _ => none

example : ∃ s, Runs small small.init
    [.pick 0 0, .step 0, .io 0, .step 0, .step 0, .pick 1 0, .step 1] s ∧ s.race = false ∧
    s.w 0 = .done ∧ small.events = 7 :=
  ⟨_, exec_runs _ _ _ rfl, rfl, rfl, rfl⟩

/-- Coroutines that are spawned onto strands, as in `example/thread_pool.cpp`: never two threads in
one coroutine or one strand, and all of them end. -/
theorem C121_partial (g : Cfg) (h0 : 0 < g.nT) (hg : g.Spawned) (es : List Ev) (s : St)
    (h : Runs g g.init es s) :
    s.race = false ∧
      (∀ t u c d k, (s.pc t).coro = some c → (s.pc u).coro = some d → c < g.nC → d < g.nC →
        g.ex c = .strand k → g.ex d = .strand k → t = u) ∧
      (Stuck g s → ∀ c, c < g.nC → s.w c = .done) := by
  have hok : g.Ok := fun c t hc hd => by rw [(hg c hc).1] at hd; exact absurd hd (by simp)
  have hr : s.race = false := by
    cases hr : s.race with
    | false => rfl
    | true =>
      obtain ⟨-, c, hc, -, h1⟩ := (C121_exact g hok).1 ⟨es, s, h, hr⟩
      obtain ⟨h2, k, h3⟩ := hg c hc
      rcases h1 with h1 | h1
      · exact absurd h2 h1
      · rw [h3] at h1; exact absurd h1 (by simp)
  refine ⟨hr, fun t u c d k h1 h2 hc hd e1 e2 =>
    C121_strand g es s h hr t u c d k h1 h2 e1 e2 (hg c hc).1 (hg d hd).1, fun hs c hc =>
    (((C121_ends g hok h0 es s h hr).2 hs).1 c hc).1⟩

example : pool4.Spawned ∧ 0 < pool4.nT := ⟨fun c _ => ⟨rfl, c, rfl⟩, by simp [pool4]⟩

/-- `test/strand.cpp`: its coroutines are called outside of the strand, so a thread may take the
completion of the timer of a coroutine that another has not suspended yet. -/
theorem C121_violated : ∃ es s, Runs test8 test8.init es s ∧ s.race = true :=
  (C121_exact test8 (fun c t hc h => by obtain rfl := Option.some.inj h; exact hc)).2
    ⟨by simp [test8], 0, by simp [test8], by simp [test8], Or.inl (by simp [test8])⟩

/-- And two of them can be at work at a time before their first await, on the same strand. -/
theorem C121_both_violated : ∃ es s t u c d, Runs test8 test8.init es s ∧ t ≠ u ∧ s.race = false ∧
    (s.pc t).coro = some c ∧ (s.pc u).coro = some d ∧ test8.ex c = test8.ex d := by
  refine ⟨[.start 0 0, .start 1 1], _, 0, 1, 0, 1,
    .cons rfl (s' := { test8.init with
      w := upd (fun _ => .fresh) 0 .busy, pc := upd (fun _ => .idle) 0 (.run 0 false) }) ?_
      (.cons rfl (s' := { test8.init with
        w := upd (upd (fun _ => .fresh) 0 .busy) 1 .busy
        pc := upd (upd (fun _ => .idle) 0 (.run 0 false)) 1 (.run 1 false) }) ?_ (.nil _)), by simp,
    rfl, ?_⟩
  · simp [Cfg.next, test8, Cfg.init]
  · simp [Cfg.next, test8, Cfg.init, upd]
  · simp [upd, Pc.coro, test8]

/-- A coroutine that is called is started by the thread that calls it, and one that is spawned by a thread that serves
its executor; both from their first event on. -/
theorem C121_started (g : Cfg) (es : List Ev) (s : St) (h : Runs g g.init es s) (hr : s.race = false) (c : Nat)
    (hw : s.w c ≠ .fresh) :
    match g.direct c with
    | some t => .start t c ∈ es
    | none => ∃ t, .pick t c ∈ es := by
  have key : ∀ {s es s'}, Runs g s es s' → s'.race = false → Inv g s → s.w c = .fresh → s'.w c ≠ .fresh →
      match g.direct c with
      | some t => .start t c ∈ es
      | none => ∃ t, .pick t c ∈ es := by
    intro s es s' h
    induction h with
    | nil s => exact fun _ _ h1 h2 => absurd h1 h2
    | @cons s s1 s2 e es h0 h1 h2 ih =>
      intro hr hi hf hw
      have hi1 : Inv g s1 := by
        rcases hi.next h0 h1 with ⟨h, -⟩ | ⟨h, -⟩
        · exact h
        · cases h2 with
          | nil => rw [hr] at h; cases h
          | cons h3 => rw [h] at h3; cases h3
      by_cases hx : s1.w c = .fresh
      · have := ih hr hi1 hx hw
        cases hd : g.direct c with
        | some t => rw [hd] at this; exact List.mem_cons_of_mem _ this
        | none =>
          rw [hd] at this
          obtain ⟨t, ht⟩ := this
          exact ⟨t, List.mem_cons_of_mem _ ht⟩
      · cases e with
        | start t d =>
          simp only [Cfg.next] at h1
          split at h1
          · next hc =>
            obtain ⟨-, -, -, c4, -⟩ := hc
            obtain rfl := Option.some.inj h1
            by_cases hdc : c = d
            · subst hdc; rw [c4]; exact List.mem_cons_self
            · exact absurd hf (by simpa [upd, hdc] using hx)
          · exact absurd h1 (by simp)
        | pick t d =>
          simp only [Cfg.next] at h1
          split at h1
          · next hc =>
            obtain ⟨-, -, c3, -⟩ := hc
            split at h1
            · obtain rfl := Option.some.inj h1
              exact absurd hf hx
            · obtain rfl := Option.some.inj h1
              by_cases hdc : c = d
              · subst hdc
                simp only [Cfg.job, decide_eq_true_eq] at c3
                rcases c3.2 with e | e
                · rw [hf] at e; cases e
                · rw [e.2]; exact ⟨t, List.mem_cons_self⟩
              · exact absurd hf (by simpa [upd, hdc] using hx)
          · exact absurd h1 (by simp)
        | io d =>
          simp only [Cfg.next] at h1
          split at h1
          · next hc =>
            obtain rfl := Option.some.inj h1
            by_cases hdc : c = d
            · subst hdc; rw [hf] at hc; cases hc.2
            · exact absurd hf (by simpa [upd, hdc] using hx)
          · exact absurd h1 (by simp)
        | step t =>
          simp only [Cfg.next] at h1
          split at h1
          · rcases hp : s.pc t with _ | ⟨d, i⟩ | ⟨d, i⟩ | ⟨d, i⟩ <;> rw [hp] at h1 <;> simp only [Cfg.go] at h1
            · cases h1
            · have hb := hi.run t d i hp
              have hdc : c ≠ d := by rintro rfl; rw [hf] at hb; cases hb
              split at h1 <;> obtain rfl := Option.some.inj h1 <;>
                exact absurd hf (by simpa [upd, hdc] using hx)
            · obtain rfl := Option.some.inj h1; exact absurd hf hx
            · obtain rfl := Option.some.inj h1; exact absurd hf hx
          · cases h1
  exact key h hr (Inv.init g) rfl hw

example : ∃ s, Runs test8 test8.init [.start 0 0, .start 1 1] s ∧ s.race = false ∧ s.w 1 ≠ .fresh :=
  ⟨_, exec_runs _ _ _ rfl, rfl, by decide⟩

end Cobalt.Strand
