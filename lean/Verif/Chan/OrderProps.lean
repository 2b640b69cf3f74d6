import Verif.Chan.QueueLemmas
import Verif.VChan.QueueLemmas
/-!
# C91: waiting operations are served in the order in which they came

For both kinds of channels: an operation that waits is not overtaken by one that began to wait after it. (Who does
not have to wait may be quicker, see C03 and C57.)
-/
namespace Cobalt.Chan

/-- **C91** for reads: read `j` starts to wait after read `i`; as long as `i` waits, so does `j`, unless `j` is
cancelled or interrupted or the channel is closed. -/
theorem C91_reads (cap : Nat) (es₁ es₂ es₃ : List Ev) (i j : Nat)
    (hi : ((exec cap es₁).R i).waiting = true) (hj : ((exec cap es₁).R j).waiting = false)
    (hj' : ((exec cap (es₁ ++ es₂)).R j).waiting = true)
    (hn : ∀ e ∈ es₃, Tok.r j ∉ e.names ∧ e ≠ .close)
    (hi' : ((exec cap (es₁ ++ es₂ ++ es₃)).R i).waiting = true) :
    ((exec cap (es₁ ++ es₂ ++ es₃)).R j).waiting = true := by
  have hw := WF.exec cap es₁
  have hw2 := WF.exec cap (es₁ ++ es₂)
  have e1 : exec cap (es₁ ++ es₂) = (exec cap es₁).steps es₂ := by simp [exec, St.steps]
  have e2 : exec cap (es₁ ++ es₂ ++ es₃) = (exec cap (es₁ ++ es₂)).steps es₃ := by simp [exec, St.steps]
  cases hu : (exec cap es₁).ub with
  | true =>
    exfalso
    have hfr : ∀ (es : List Ev) (s : St), s.ub = true → s.steps es = s := by
      intro es
      induction es with
      | nil => exact fun _ _ => rfl
      | cons e es ih =>
        intro s hs
        have : s.step e = s := by unfold St.step; rw [if_pos hs]
        rw [show s.steps (e :: es) = (s.step e).steps es from rfl, this]
        exact ih s hs
    rw [e1, hfr _ _ hu, hj] at hj'
    cases hj'
  | false =>
    have ho := (rv_wt_old hw hu hi).1
    have hi2 : ((exec cap (es₁ ++ es₂)).R i).waiting = true := by
      rw [e1]
      refine rv_back es₃ (by rw [← e1]; exact hw2) i (rv_keep es₂ hw i ho) ?_
      rw [← e1, ← e2]; exact hi'
    have hs := rv_arrive es₂ hw i j hi ho (fun h => by rw [hj] at h; cases h) (by rw [← e1]; exact hi2)
      (by rw [← e1]; exact hj')
    rw [← e1] at hs
    rw [e2]
    refine rv_steps es₃ hw2 i j hs hj' (fun e he h => ?_) (by rw [← e2]; exact hi') hi2
    rcases h with h | h
    · exact (hn e he).1 h
    · exact (hn e he).2 h

/-- **C91** for writes: write `j` starts to wait after write `i`; as long as `i` waits, so does `j`, unless `j` is
cancelled or interrupted or the channel is closed. -/
theorem C91_writes (cap : Nat) (es₁ es₂ es₃ : List Ev) (i j : Nat)
    (hi : ((exec cap es₁).W i).waiting = true) (hj : ((exec cap es₁).W j).waiting = false)
    (hj' : ((exec cap (es₁ ++ es₂)).W j).waiting = true)
    (hn : ∀ e ∈ es₃, Tok.w j ∉ e.names ∧ e ≠ .close)
    (hi' : ((exec cap (es₁ ++ es₂ ++ es₃)).W i).waiting = true) :
    ((exec cap (es₁ ++ es₂ ++ es₃)).W j).waiting = true := by
  have hw := WF.exec cap es₁
  have hw2 := WF.exec cap (es₁ ++ es₂)
  have e1 : exec cap (es₁ ++ es₂) = (exec cap es₁).steps es₂ := by simp [exec, St.steps]
  have e2 : exec cap (es₁ ++ es₂ ++ es₃) = (exec cap (es₁ ++ es₂)).steps es₃ := by simp [exec, St.steps]
  cases hu : (exec cap es₁).ub with
  | true =>
    exfalso
    have hfr : ∀ (es : List Ev) (s : St), s.ub = true → s.steps es = s := by
      intro es
      induction es with
      | nil => exact fun _ _ => rfl
      | cons e es ih =>
        intro s hs
        have : s.step e = s := by unfold St.step; rw [if_pos hs]
        rw [show s.steps (e :: es) = (s.step e).steps es from rfl, this]
        exact ih s hs
    rw [e1, hfr _ _ hu, hj] at hj'
    cases hj'
  | false =>
    have ho := (wv_wt_old hw hu hi).1
    have hi2 : ((exec cap (es₁ ++ es₂)).W i).waiting = true := by
      rw [e1]
      refine wv_back es₃ (by rw [← e1]; exact hw2) i (wv_keep es₂ hw i ho) ?_
      rw [← e1, ← e2]; exact hi'
    have hs := wv_arrive es₂ hw i j hi ho (fun h => by rw [hj] at h; cases h) (by rw [← e1]; exact hi2)
      (by rw [← e1]; exact hj')
    rw [← e1] at hs
    rw [e2]
    refine wv_steps es₃ hw2 i j hs hj' (fun e he h => ?_) (by rw [← e2]; exact hi') hi2
    rcases h with h | h
    · exact (hn e he).1 h
    · exact (hn e he).2 h

/-- Three readers wait, two writers come: the first two readers are served. -/
example : ((exec 0 [.mkR, .mkR, .mkR, .mkW, .mkW, .awaitR 2 true false [], .awaitR 0 true false [],
    .awaitR 1 true false [], .awaitW 0 true false [], .awaitW 1 true false []]).R 1).waiting = true := by decide

example : (exec 0 [.mkR, .mkR, .mkR, .mkW, .mkW, .awaitR 2 true false [], .awaitR 0 true false [],
    .awaitR 1 true false [], .awaitW 0 true false [], .awaitW 1 true false []]).log.length = 7 := by decide

/-- The hypotheses: read 2 waits before read 0 does, and still does after a third one came. -/
example : ((exec 0 [.mkR, .mkR, .mkR, .awaitR 2 true false []]).R 2).waiting = true ∧
    ((exec 0 [.mkR, .mkR, .mkR, .awaitR 2 true false []]).R 0).waiting = false ∧
    ((exec 0 ([.mkR, .mkR, .mkR, .awaitR 2 true false []] ++ [.awaitR 0 true false []])).R 0).waiting = true ∧
    ((exec 0 ([.mkR, .mkR, .mkR, .awaitR 2 true false []] ++ [.awaitR 0 true false []] ++
      [.awaitR 1 true false [], .cancelR 1])).R 2).waiting = true := by decide

/-- Likewise for writes. -/
example : ((exec 0 [.mkW, .mkW, .awaitW 1 true false []]).W 1).waiting = true ∧
    ((exec 0 [.mkW, .mkW, .awaitW 1 true false []]).W 0).waiting = false ∧
    ((exec 0 ([.mkW, .mkW, .awaitW 1 true false []] ++ [.awaitW 0 true false []])).W 0).waiting = true := by decide

end Cobalt.Chan

namespace Cobalt.VChan

open Chan (Tok)

/-- **C91** for reads: read `j` starts to wait after read `i`; as long as `i` waits, so does `j`, unless `j` is
cancelled or interrupted or the channel is closed. -/
theorem C91_reads (cap : BitVec 64) (es₁ es₂ es₃ : List Ev) (i j : Nat)
    (hi : ((exec cap es₁).R i).waiting = true) (hj : ((exec cap es₁).R j).waiting = false)
    (hj' : ((exec cap (es₁ ++ es₂)).R j).waiting = true)
    (hn : ∀ e ∈ es₃, Tok.r j ∉ e.names ∧ e ≠ .close)
    (hi' : ((exec cap (es₁ ++ es₂ ++ es₃)).R i).waiting = true) :
    ((exec cap (es₁ ++ es₂ ++ es₃)).R j).waiting = true := by
  have hw := WF.exec cap es₁
  have hw2 := WF.exec cap (es₁ ++ es₂)
  have e1 : exec cap (es₁ ++ es₂) = (exec cap es₁).steps es₂ := by simp [exec, St.steps]
  have e2 : exec cap (es₁ ++ es₂ ++ es₃) = (exec cap (es₁ ++ es₂)).steps es₃ := by simp [exec, St.steps]
  cases hu : (exec cap es₁).ub with
  | true =>
    exfalso
    have hfr : ∀ (es : List Ev) (s : St), s.ub = true → s.steps es = s := by
      intro es
      induction es with
      | nil => exact fun _ _ => rfl
      | cons e es ih =>
        intro s hs
        have : s.step e = s := by unfold St.step; rw [if_pos hs]
        rw [show s.steps (e :: es) = (s.step e).steps es from rfl, this]
        exact ih s hs
    rw [e1, hfr _ _ hu, hj] at hj'
    cases hj'
  | false =>
    have ho := (rv_wt_old hw hu hi).1
    have hi2 : ((exec cap (es₁ ++ es₂)).R i).waiting = true := by
      rw [e1]
      refine rv_back es₃ (by rw [← e1]; exact hw2) i (rv_keep es₂ hw i ho) ?_
      rw [← e1, ← e2]; exact hi'
    have hs := rv_arrive es₂ hw i j hi ho (fun h => by rw [hj] at h; cases h) (by rw [← e1]; exact hi2)
      (by rw [← e1]; exact hj')
    rw [← e1] at hs
    rw [e2]
    refine rv_steps es₃ hw2 i j hs hj' (fun e he h => ?_) (by rw [← e2]; exact hi') hi2
    rcases h with h | h
    · exact (hn e he).1 h
    · exact (hn e he).2 h

/-- **C91** for writes: write `j` starts to wait after write `i`; as long as `i` waits, so does `j`, unless `j` is
cancelled or interrupted or the channel is closed. -/
theorem C91_writes (cap : BitVec 64) (es₁ es₂ es₃ : List Ev) (i j : Nat)
    (hi : ((exec cap es₁).W i).waiting = true) (hj : ((exec cap es₁).W j).waiting = false)
    (hj' : ((exec cap (es₁ ++ es₂)).W j).waiting = true)
    (hn : ∀ e ∈ es₃, Tok.w j ∉ e.names ∧ e ≠ .close)
    (hi' : ((exec cap (es₁ ++ es₂ ++ es₃)).W i).waiting = true) :
    ((exec cap (es₁ ++ es₂ ++ es₃)).W j).waiting = true := by
  have hw := WF.exec cap es₁
  have hw2 := WF.exec cap (es₁ ++ es₂)
  have e1 : exec cap (es₁ ++ es₂) = (exec cap es₁).steps es₂ := by simp [exec, St.steps]
  have e2 : exec cap (es₁ ++ es₂ ++ es₃) = (exec cap (es₁ ++ es₂)).steps es₃ := by simp [exec, St.steps]
  cases hu : (exec cap es₁).ub with
  | true =>
    exfalso
    have hfr : ∀ (es : List Ev) (s : St), s.ub = true → s.steps es = s := by
      intro es
      induction es with
      | nil => exact fun _ _ => rfl
      | cons e es ih =>
        intro s hs
        have : s.step e = s := by unfold St.step; rw [if_pos hs]
        rw [show s.steps (e :: es) = (s.step e).steps es from rfl, this]
        exact ih s hs
    rw [e1, hfr _ _ hu, hj] at hj'
    cases hj'
  | false =>
    have ho := (wv_wt_old hw hu hi).1
    have hi2 : ((exec cap (es₁ ++ es₂)).W i).waiting = true := by
      rw [e1]
      refine wv_back es₃ (by rw [← e1]; exact hw2) i (wv_keep es₂ hw i ho) ?_
      rw [← e1, ← e2]; exact hi'
    have hs := wv_arrive es₂ hw i j hi ho (fun h => by rw [hj] at h; cases h) (by rw [← e1]; exact hi2)
      (by rw [← e1]; exact hj')
    rw [← e1] at hs
    rw [e2]
    refine wv_steps es₃ hw2 i j hs hj' (fun e he h => ?_) (by rw [← e2]; exact hi') hi2
    rcases h with h | h
    · exact (hn e he).1 h
    · exact (hn e he).2 h

/-- Three readers wait, two writers come: the first two readers are served. -/
example : ((exec 0#64 [.mkR, .mkR, .mkR, .mkW, .mkW, .awaitR 2 true false [], .awaitR 0 true false [],
    .awaitR 1 true false [], .awaitW 0 true false [], .awaitW 1 true false []]).R 1).waiting = true := by decide

example : (exec 0#64 [.mkR, .mkR, .mkR, .mkW, .mkW, .awaitR 2 true false [], .awaitR 0 true false [],
    .awaitR 1 true false [], .awaitW 0 true false [], .awaitW 1 true false []]).log.length = 2 := by decide

/-- The hypotheses: read 2 waits before read 0 does, and still does after a third one came. -/
example : ((exec 0#64 [.mkR, .mkR, .mkR, .awaitR 2 true false []]).R 2).waiting = true ∧
    ((exec 0#64 [.mkR, .mkR, .mkR, .awaitR 2 true false []]).R 0).waiting = false ∧
    ((exec 0#64 ([.mkR, .mkR, .mkR, .awaitR 2 true false []] ++ [.awaitR 0 true false []])).R 0).waiting = true ∧
    ((exec 0#64 ([.mkR, .mkR, .mkR, .awaitR 2 true false []] ++ [.awaitR 0 true false []] ++
      [.awaitR 1 true false [], .cancelR 1])).R 2).waiting = true := by decide

/-- Likewise for writes. -/
example : ((exec 0#64 [.mkW, .mkW, .awaitW 1 true false []]).W 1).waiting = true ∧
    ((exec 0#64 [.mkW, .mkW, .awaitW 1 true false []]).W 0).waiting = false ∧
    ((exec 0#64 ([.mkW, .mkW, .awaitW 1 true false []] ++ [.awaitW 0 true false []])).W 0).waiting = true := by decide

end Cobalt.VChan
