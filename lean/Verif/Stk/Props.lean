import Verif.Stk.Lemmas
/-!
# C115: the stack is bounded

However often coroutines hand over to each other, the stack of the thread should not hold more activations than there are
coroutines.
-/
namespace Cobalt.Stk

theorem loop_depth (ctx : Nat → Bool) {c g : Nat} (hcg : c ≠ g) (n : Nat) : ∀ (s : St) (fs : List Fr), s.stack = ⟨c, false⟩ :: fs →
    s.stat g = .susp → (s.steps ctx (loop c g n)).stack.length =
      1 + fs.length + n * ((if ctx c then 1 else 0) + if ctx g then 1 else 0) ∧
      (s.steps ctx (loop c g n)).made = s.made := by
  induction n with
  | zero => intro s fs h _; simp [loop, St.steps, h]; omega
  | succ n ih =>
    intro s fs h hg
    have e1 : s.step ctx (.transfer g) = { s with
        stack := ⟨g, false⟩ :: leave ctx c fs, stat := upd (upd s.stat c .susp) g .busy } := by
      simp only [St.step, h, hg, if_true]
    have hc : (upd (upd s.stat c .susp) g .busy) c = .susp := by rw [upd_ne _ _ hcg, upd_eq]
    have e2 : (s.step ctx (.transfer g)).step ctx (.transfer c) = { s with
        stack := ⟨c, false⟩ :: leave ctx g (leave ctx c fs)
        stat := upd (upd (upd (upd s.stat c .susp) g .busy) g .susp) c .busy } := by
      rw [e1]; simp only [St.step, hc, if_true]
    obtain ⟨h1, h2⟩ := ih ((s.step ctx (.transfer g)).step ctx (.transfer c)) (leave ctx g (leave ctx c fs))
      (by rw [e2]) (by rw [e2]; show upd _ c _ g = _; rw [upd_ne _ _ (Ne.symm hcg), upd_eq])
    refine ⟨?_, ?_⟩
    · show (((s.step ctx (.transfer g)).step ctx (.transfer c)).steps ctx (loop c g n)).stack.length = _
      rw [h1]
      have : (leave ctx g (leave ctx c fs)).length = fs.length + ((if ctx c then 1 else 0) + if ctx g then 1 else 0) := by
        unfold leave; split <;> split <;> simp
      rw [this, Nat.succ_mul]; omega
    · show (((s.step ctx (.transfer g)).step ctx (.transfer c)).steps ctx (loop c g n)).made = _
      rw [h2, e2]

theorem steps_append (ctx : Nat → Bool) (s : St) (es es' : List Ev) : s.steps ctx (es ++ es') = (s.steps ctx es).steps ctx es' := by
  simp [St.steps, List.foldl_append]

/-- A coroutine makes a lazy generator and takes `n` values: the depth of the stack is one, and
one more for each value for each of them that is stackful. -/
theorem C115_loop (ctx : Nat → Bool) (n : Nat) :
    (run ctx ([.create, .create, .suspend] ++ loop 0 1 n)).stack.length =
      1 + n * ((if ctx 0 then 1 else 0) + if ctx 1 then 1 else 0) ∧
    (run ctx ([.create, .create, .suspend] ++ loop 0 1 n)).made = 2 := by
  have h := loop_depth ctx (show (0 : Nat) ≠ 1 by decide) n (run ctx [.create, .create, .suspend]) [] rfl rfl
  unfold run at h ⊢
  rw [steps_append]
  exact h

example : (run (fun c => c == 1) ([.create, .create, .suspend] ++ loop 0 1 5)).stack.length = 6 ∧
    (run (fun _ => true) ([.create, .create, .suspend] ++ loop 0 1 5)).stack.length = 11 ∧
    (run (fun _ => false) ([.create, .create, .suspend] ++ loop 0 1 5)).stack.length = 1 := by decide

/-- A coroutine awaits `n` tasks, one at a time: the depth of the stack is one, and if it is stackful one more for each of
them; only that coroutine is left. -/
theorem C115_tasks (b : Bool) (n : Nat) :
    (run (fun c => c == 0 && b) (tasks n)).stack.length = 1 + n * (if b then 1 else 0) ∧
    (run (fun c => c == 0 && b) (tasks n)).live = 1 := by
  have key : (∃ fs, (run (fun c => c == 0 && b) (tasks n)).stack = ⟨0, false⟩ :: fs ∧ fs.length = n * (if b then 1 else 0)) ∧
      (run (fun c => c == 0 && b) (tasks n)).made = n + 1 ∧ (run (fun c => c == 0 && b) (tasks n)).stat 0 = .busy ∧
      ∀ c, 0 < c → c < n + 1 → (run (fun c => c == 0 && b) (tasks n)).stat c = .over := by
    induction n with
    | zero => exact ⟨⟨[], rfl, by simp⟩, rfl, rfl, fun c h1 h2 => by omega⟩
    | succ n ih =>
      obtain ⟨⟨fs, h1, h2⟩, h3, h4, h5⟩ := ih
      have hr : run (fun c => c == 0 && b) (tasks (n + 1)) = ((((run (fun c => c == 0 && b) (tasks n)).step (fun c => c == 0 && b) .create).step
          (fun c => c == 0 && b) .suspend).step (fun c => c == 0 && b) (.transfer (n + 1))).step (fun c => c == 0 && b) (.finishTo 0) := by
        simp only [run, tasks, steps_append]; rfl
      rw [hr]
      generalize run (fun c => c == 0 && b) (tasks n) = s at *
      have e1 : (s.step (fun c => c == 0 && b) .create).step (fun c => c == 0 && b) .suspend =
          { stack := s.stack, stat := upd (upd s.stat (n + 1) .busy) (n + 1) .susp, made := n + 2 } := by
        simp only [St.step, h1, h3]; simp [unwind]
      have e2 : ((s.step (fun c => c == 0 && b) .create).step (fun c => c == 0 && b) .suspend).step (fun c => c == 0 && b)
          (.transfer (n + 1)) =
          { stack := ⟨n + 1, false⟩ :: leave (fun c => c == 0 && b) 0 fs
            stat := upd (upd (upd (upd s.stat (n + 1) .busy) (n + 1) .susp) 0 .susp) (n + 1) .busy, made := n + 2 } := by
        rw [e1]; simp only [St.step, h1, upd_eq, if_true]
      have hz : (upd (upd (upd (upd s.stat (n + 1) .busy) (n + 1) .susp) 0 .susp) (n + 1) .busy) 0 = .susp := by
        rw [upd_ne _ _ (by omega), upd_eq]
      rw [e2]
      simp only [St.step, hz, if_true]
      refine ⟨⟨leave (fun c => c == 0 && b) 0 fs, ?_, ?_⟩, trivial, upd_eq _ _ _, fun c hc1 hc2 => ?_⟩
      · simp [leave]
      · cases b <;> simp [leave, h2]
      · rw [upd_ne _ _ (by omega)]
        by_cases e : c = n + 1
        · rw [e, upd_eq]
        · rw [upd_ne _ _ e, upd_ne _ _ e, upd_ne _ _ (by omega), upd_ne _ _ e, upd_ne _ _ e]
          exact h5 c hc1 (by omega)
  obtain ⟨⟨fs, h1, h2⟩, h3, h4, h5⟩ := key
  refine ⟨by rw [h1, List.length_cons, h2]; omega, ?_⟩
  unfold St.live
  rw [h3, List.range_succ_eq_map, List.countP_cons, h4, List.countP_map]
  have : List.countP ((fun c => decide ((run (fun c => c == 0 && b) (tasks n)).stat c = .busy) ||
      decide ((run (fun c => c == 0 && b) (tasks n)).stat c = .susp)) ∘ Nat.succ) (List.range n) = 0 := by
    rw [List.countP_eq_zero]
    intro c hc
    rw [List.mem_range] at hc
    simp [h5 (c + 1) (by omega) (by omega)]
  rw [this]; rfl

example : (run (fun c => c == 0 && true) (tasks 3)).stack.length = 4 := by decide

/-- With stackful coroutines two of them are enough for a stack of any depth. -/
theorem C115_violated : ∃ ctx, ∀ N, ∃ es, (run ctx es).live ≤ 2 ∧ N < (run ctx es).stack.length := by
  refine ⟨fun _ => true, fun N => ⟨[.create, .create, .suspend] ++ loop 0 1 N, ?_, ?_⟩⟩
  · have h := (C115_loop (fun _ => true) N).2
    unfold St.live
    rw [h]
    exact List.countP_le_length
  · rw [(C115_loop (fun _ => true) N).1]
    simp only [if_true]; omega

/-- The depth is the number of coroutines that run or wait for a call to return, and of the activations of stackful
coroutines that have handed over; of these there are no more than times this has happened. -/
theorem C115_exact (ctx : Nat → Bool) (es : List Ev) :
    (run ctx es).stack.length = (run ctx es).busy + (run ctx es).lefts ∧ (run ctx es).busy ≤ (run ctx es).live ∧
    (run ctx es).lefts ≤ nestings ctx {} es := by
  have i := SI.run ctx es
  refine ⟨?_, busy_le_live _, ?_⟩
  · rw [length_here, i.count]; rfl
  · have := steps_lefts (ctx := ctx) SI.init es
    simpa [St.lefts, run] using this

example : (run (fun c => c == 1) [.create, .create, .suspend, .transfer 1, .transfer 0, .create]).stack =
    [⟨2, false⟩, ⟨0, false⟩, ⟨1, true⟩] ∧ nestings (fun c => c == 1) {} [.create, .create, .suspend, .transfer 1, .transfer 0, .create] = 1 := by
  decide

/-- With usual coroutines only, or if the stackful ones do not hand over, the stack holds at most one activation of each
coroutine that has not ended. -/
theorem C115_partial (ctx : Nat → Bool) (es : List Ev) (h : (∀ c, ctx c = false) ∨ nestings ctx {} es = 0) :
    (run ctx es).stack.length ≤ (run ctx es).live ∧ ((run ctx es).stack.map Fr.co).Nodup := by
  have h0 : nestings ctx {} es = 0 := by
    rcases h with h | h
    · have : ∀ (es : List Ev) (s : St), nestings ctx s es = 0 := by
        intro es
        induction es with
        | nil => intro s; rfl
        | cons e es ih =>
          intro s
          have hn : s.nests ctx e = false := by unfold St.nests; split <;> simp [h]
          simp [nestings, hn, ih]
      exact this es _
    · exact h
  obtain ⟨h1, h2, h3⟩ := C115_exact ctx es
  refine ⟨by omega, ?_⟩
  have hl : (run ctx es).lefts = 0 := by omega
  have i := (SI.run ctx es).nd
  have : here (run ctx es).stack = (run ctx es).stack.map Fr.co := by
    unfold here
    rw [List.filter_eq_self.2]
    intro f hf
    have := List.countP_eq_zero.1 hl f hf
    simpa using this
  rwa [this] at i

example : (run (fun _ => false) [.create, .create, .suspend, .create, .call 1, .transfer 0]).stack.length = 3 ∧
    (run (fun _ => false) [.create, .create, .suspend, .create, .call 1, .transfer 0]).live = 3 := by decide

/-- The executor has the thread again if and only if no coroutine runs or waits for a call to return: what stackful
coroutines have left returns then. -/
theorem C115_returns (ctx : Nat → Bool) (es : List Ev) :
    (run ctx es).stack = [] ↔ ∀ c, (run ctx es).stat c ≠ .busy := by
  have i := SI.run ctx es
  constructor
  · intro h c hc
    have := (i.busy c).2 hc
    rw [h] at this; cases this
  · intro h
    cases hs : (run ctx es).stack with
    | nil => rfl
    | cons f fs =>
      have hf := i.top f fs hs
      refine absurd ((i.busy f.co).1 ?_) (h f.co)
      rw [hs]; cases f; simp only at hf; subst hf; rw [here_cons]; exact List.mem_cons_self

example : (run (fun _ => true) ([.create, .create, .suspend] ++ loop 0 1 5 ++ [.suspend])).stack = [] := by decide

end Cobalt.Stk
