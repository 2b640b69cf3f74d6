import Verif.VNet.CountSpec
import Verif.VNet.Count
import Verif.Net.PassProps
/-! Helper: buffers of values that carry nothing are counters. -/
namespace Cobalt.VNet
open Chan (upd)

/-- The results `H` are `k` successes. -/
def Oks (H : Nat → List Net.Res) (k : Nat → Nat) : Prop := ∀ p, (H p).map down = List.replicate (k p) .ok

theorem Oks.upd {H : Nat → List Net.Res} {k : Nat → Nat} (h : Oks H k) (p : Nat) {x : Net.Res} (hx : down x = .ok) :
    Oks (upd H p (H p ++ [x])) (upd k p (k p + 1)) := by
  intro r
  unfold Chan.upd
  split
  · subst_vars
    rw [List.map_append, h, List.replicate_succ', List.map_singleton, hx]
  · exact h r

theorem Oks.upd2 {H : Nat → List Net.Res} {k : Nat → Nat} (h : Oks H k) (p q : Nat) {x y : Net.Res} (hx : down x = .ok)
    (hy : down y = .ok) :
    Oks (Chan.upd (Chan.upd H p (H p ++ [x])) q (H q ++ [y])) (Chan.upd (Chan.upd k p (k p + 1)) q (k q + 1)) := by
  intro r
  unfold Chan.upd
  split
  · subst_vars
    rw [List.map_append, h, List.replicate_succ', List.map_singleton, hy]
  · split
    · subst_vars
      rw [List.map_append, h, List.replicate_succ', List.map_singleton, hx]
    · exact h r

theorem Oks.act {N : Prog} {H : Nat → List Net.Res} {k : Nat → Nat} (h : Oks H k) (p : Nat) :
    (up N).act p (H p) = upA (N.nth p (k p)) := by
  show upA (N.act p ((H p).map down)) = _
  rw [h]; rfl

theorem Oks.reads (N : Prog) {H : Nat → List Net.Res} {k : Nat → Nat} (h : Oks H k) (p c : Nat) :
    (Net.received ((up N).act p) c (H p)).length = N.times p (.read c) (k p) := by
  rw [Net.received_length, done_up N p (h p), nreads_up, times_eq]

theorem Oks.writes (N : Prog) {H : Nat → List Net.Res} {k : Nat → Nat} (h : Oks H k) (p c : Nat) :
    (Net.sent c (Net.done ((up N).act p) (H p))).length = N.times p (.write c) (k p) := by
  rw [done_up N p (h p), sent_up, times_eq]

theorem Oks.open (N : Prog) {H : Nat → List Net.Res} {k : Nat → Nat} (h : Oks H k) (p c : Nat) :
    Net.Act.close c ∉ Net.done ((up N).act p) (H p) := by
  rw [done_up N p (h p)]; exact no_close _ _

theorem upA_read {a : Act} {c : Nat} : upA a = .read c ↔ a = .read c := by cases a <;> simp [upA]
theorem upA_write {a : Act} {c v : Nat} (h : upA a = .write c v) : a = .write c := by
  cases a <;> simp_all [upA]
theorem upA_close {a : Act} {c : Nat} : upA a ≠ .close c := by cases a <;> simp [upA]
theorem upA_stop {a : Act} : upA a = .stop ↔ a = .stop := by cases a <;> simp [upA]

theorem Counts.up {N : Prog} {cap k : Nat → Nat} (h : Counts N cap k) :
    ∃ H, Net.Passes (VNet.up N) cap H ∧ Oks H k := by
  induction h with
  | start => exact ⟨_, .start, fun p => rfl⟩
  | @put k q c h hw hr ih =>
    obtain ⟨H, h1, h2⟩ := ih
    have e : (VNet.up N).act q (H q) = .write c 0 := by rw [h2.act, hw]; rfl
    refine ⟨_, .put h1 e (h2.open N q c) ?_, h2.upd q rfl⟩
    rw [h2.writes, h2.reads]; exact hr
  | @get k p c h hr hv ih =>
    obtain ⟨H, h1, h2⟩ := ih
    have e : (VNet.up N).act p (H p) = .read c := by rw [h2.act, hr]; rfl
    have hl : (Net.received ((VNet.up N).act p) c (H p)).length <
        (Net.sent c (Net.done ((VNet.up N).act ((VNet.up N).wr c)) (H ((VNet.up N).wr c)))).length := by
      rw [h2.reads, h2.writes]; exact hv
    exact ⟨_, .get h1 e (List.getElem?_eq_getElem hl), h2.upd p rfl⟩
  | @meet k p q c h hr hw he ih =>
    obtain ⟨H, h1, h2⟩ := ih
    have e1 : (VNet.up N).act p (H p) = .read c := by rw [h2.act, hr]; rfl
    have e2 : (VNet.up N).act q (H q) = .write c 0 := by rw [h2.act, hw]; rfl
    refine ⟨_, .meet h1 e1 e2 (h2.open N q c) ?_, h2.upd2 p q rfl rfl⟩
    rw [h2.writes, h2.reads]; exact he

theorem passes_counts {N : Prog} {cap : Nat → Nat} {H : Nat → List Net.Res} (h : Net.Passes (up N) cap H) :
    ∃ k, Counts N cap k ∧ Oks H k := by
  induction h with
  | start => exact ⟨_, .start, fun p => rfl⟩
  | @put H q c v h hw ho hr ih =>
    obtain ⟨k, h1, h2⟩ := ih
    rw [h2.act] at hw
    rw [h2.writes, h2.reads] at hr
    exact ⟨_, .put h1 (upA_write hw) hr, h2.upd q rfl⟩
  | @get H p c v h hr hv ih =>
    obtain ⟨k, h1, h2⟩ := ih
    rw [h2.act] at hr
    obtain ⟨hv, -⟩ := List.getElem?_eq_some_iff.1 hv
    rw [h2.writes, h2.reads] at hv
    exact ⟨_, .get h1 (upA_read.1 hr) hv, h2.upd p rfl⟩
  | @meet H p q c v h hr hw ho he ih =>
    obtain ⟨k, h1, h2⟩ := ih
    rw [h2.act] at hr hw
    rw [h2.writes, h2.reads] at he
    exact ⟨_, .meet h1 (upA_read.1 hr) (upA_write hw) he, h2.upd2 p q rfl rfl⟩
  | @close H p c h hc ih =>
    obtain ⟨k, h1, h2⟩ := ih
    rw [h2.act] at hc
    exact absurd hc upA_close
  | @ended H p c h hr hs he ih =>
    obtain ⟨k, h1, h2⟩ := ih
    exact absurd hs (h2.open N _ c)
  | @shut H p c v h hw hs ih =>
    obtain ⟨k, h1, h2⟩ := ih
    exact absurd hs (h2.open N _ c)

theorem meets_counts {N : Prog} {H : Nat → List Net.Res} (h : Net.Meets (up N) H) : ∃ k, Meets N k ∧ Oks H k := by
  induction h with
  | start => exact ⟨_, .start, fun p => rfl⟩
  | @meet H p q c v h hr hw ho ih =>
    obtain ⟨k, h1, h2⟩ := ih
    rw [h2.act] at hr hw
    exact ⟨_, .meet h1 (upA_read.1 hr) (upA_write hw), h2.upd2 p q rfl rfl⟩
  | @close H p c h hc ih =>
    obtain ⟨k, h1, h2⟩ := ih
    rw [h2.act] at hc
    exact absurd hc upA_close
  | @ended H p c h hr hs ih =>
    obtain ⟨k, h1, h2⟩ := ih
    exact absurd hs (h2.open N _ c)
  | @shut H p c v h hw hs ih =>
    obtain ⟨k, h1, h2⟩ := ih
    exact absurd hs (h2.open N _ c)

theorem Oks.length {H : Nat → List Net.Res} {k : Nat → Nat} (h : Oks H k) (p : Nat) : (H p).length = k p := by
  simpa using congrArg List.length (h p)

theorem ops_eq {N : Prog} (hN : N.proper) {cap : Nat → Nat} (hc : ∀ c, cap c < 2 ^ 64) (es : List Net.Ev) (p : Nat) :
    (run N cap es).ops p = ((Net.run (up N) cap es).hist p).length := by
  rw [(run_alike hN hc es).1]; simp [St.ops, img]

theorem net_oks {N : Prog} (hN : N.proper) {cap : Nat → Nat} (hc : ∀ c, cap c < 2 ^ 64) (es : List Net.Ev) :
    Oks (Net.run (up N) cap es).hist (run N cap es).ops := by
  intro p
  rw [ops_eq hN hc es]; exact up_ok hN cap es p

end Cobalt.VNet
