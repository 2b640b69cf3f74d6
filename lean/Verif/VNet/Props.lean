import Verif.VNet.Count
/-!
# C136: networks of coroutines that synchronise with `channel<void>`
-/
namespace Cobalt.VNet

/-- **C136**: nothing is undefined, no assertion fails, and no channel ever holds more tokens than its limit. -/
theorem C136_safe (N : Prog) (hN : N.proper) (cap : Nat → Nat) (hc : ∀ c, cap c < 2 ^ 64) (es : List Net.Ev) (c : Nat) :
    ((run N cap es).ch c).ub = false ∧ ((run N cap es).ch c).asserted = false ∧
    ((run N cap es).ch c).n.toNat ≤ cap c := by
  obtain ⟨h1, h2⟩ := run_alike hN hc es
  have g := run_good hN cap es c
  have hcap := Net.run_cap (up N) cap es c
  rw [h1]
  refine ⟨g.ub, g.asserted, ?_⟩
  have := (h2 c).le
  rw [hcap] at this
  have := hc c
  show (BitVec.ofNat 64 _).toNat ≤ _
  rw [BitVec.toNat_ofNat]
  exact Nat.le_trans (Nat.mod_le _ _) (by omega)

/-- **C136**: every read and every write that ends has succeeded. -/
theorem C136_ok (N : Prog) (hN : N.proper) (cap : Nat → Nat) (hc : ∀ c, cap c < 2 ^ 64) (es : List Net.Ev) (p : Nat) :
    (run N cap es).hist p = List.replicate ((run N cap es).hist p).length .ok := by
  rw [(run_alike hN hc es).1]
  have h := up_ok hN cap es p
  show ((Net.run (up N) cap es).hist p).map down = _
  rw [h]; simp [img, h]

/-- **C136**, why a network is at rest: a coroutine has stopped; or it waits to read and has read as often as was
written; or it waits to write and has written as often as was read and the limit on top. -/
theorem C136_why (N : Prog) (hN : N.proper) (cap : Nat → Nat) (hc : ∀ c, cap c < 2 ^ 64) (es : List Net.Ev)
    (hr : (run N cap es).rest N) (k : Nat → Nat) (hk : ∀ p, k p = ((run N cap es).hist p).length) (p : Nat) :
    N.nth p (k p) = .stop ∨
    (∃ c, N.nth p (k p) = .read c ∧ N.times p (.read c) (k p) = N.times (N.wr c) (.write c) (k (N.wr c))) ∨
    (∃ c, N.nth p (k p) = .write c ∧
      N.times p (.write c) (k p) = N.times (N.rd c) (.read c) (k (N.rd c)) + cap c) := by
  have ha := (run_alike hN hc es).1
  rw [ha] at hr
  have hr' := (rest_up _).1 hr
  have hk' : ∀ q, k q = ((Net.run (up N) cap es).hist q).length := by
    intro q; rw [hk q, ha]; simp [img]
  have hd : ∀ q, ((Net.run (up N) cap es).hist q).map down = List.replicate (k q) .ok := by
    intro q; rw [hk' q]; exact up_ok hN cap es q
  have hact : (up N).act p ((Net.run (up N) cap es).hist p) = upA (N.nth p (k p)) := by
    show upA (N.act p _) = _
    rw [hd p]; rfl
  rcases Net.C110_why (up N) (up_proper hN) cap es hr' p with h | ⟨c, h, -, h2⟩ | ⟨c, v, h, -, h2⟩
  · left
    rw [hact] at h
    cases hn : N.nth p (k p) with
    | stop => rfl
    | _ => rw [hn] at h; cases h
  · right; left
    refine ⟨c, ?_, ?_⟩
    · rw [hact] at h
      cases hn : N.nth p (k p) with
      | read c' => rw [hn] at h; cases h; rfl
      | _ => rw [hn] at h; cases h
    · have h3 := congrArg List.length h2
      rw [Net.received_length, List.length_map, done_up N p (hd p), done_up N _ (hd _), nreads_up, sent_up, times_eq,
        times_eq] at h3
      exact h3
  · right; right
    refine ⟨c, ?_, ?_⟩
    · rw [hact] at h
      cases hn : N.nth p (k p) with
      | write c' => rw [hn] at h; cases h; rfl
      | _ => rw [hn] at h; cases h
    · rw [Net.received_length, done_up N p (hd p), done_up N _ (hd _), nreads_up, sent_up, times_eq, times_eq] at h2
      exact h2

/-- **C136**: if a network comes to rest in one history, every coroutine has got as far there as in any other history,
also as in any with smaller limits. -/
theorem C136_rest (N : Prog) (hN : N.proper) (cap cap' : Nat → Nat) (hc : ∀ c, cap c ≤ cap' c)
    (hc' : ∀ c, cap' c < 2 ^ 64) (es es' : List Net.Ev) (hr : (run N cap' es').rest N) (p : Nat) :
    ((run N cap es).hist p).length ≤ ((run N cap' es').hist p).length := by
  have hlt : ∀ c, cap c < 2 ^ 64 := fun c => Nat.lt_of_le_of_lt (hc c) (hc' c)
  rw [(run_alike hN hc' es').1] at hr ⊢
  rw [(run_alike hN hlt es).1]
  have := (Net.C110_rest (up N) (up_proper hN) cap cap' hc es es' ((rest_up _).1 hr) p).length_le
  simpa [img] using this

/-- **C136**: where a network comes to rest does not depend on the executor, and there is no second such place: from there
nothing happens any more. -/
theorem C136_unique (N : Prog) (hN : N.proper) (cap : Nat → Nat) (hc : ∀ c, cap c < 2 ^ 64) (es es' : List Net.Ev)
    (hr : (run N cap es).rest N) (hr' : (run N cap es').rest N ∨ es <+: es') (p : Nat) :
    (run N cap es').hist p = (run N cap es).hist p := by
  have h1 := C136_rest N hN cap cap (fun _ => Nat.le_refl _) hc es' es hr p
  have h2 : ((run N cap es).hist p).length ≤ ((run N cap es').hist p).length := by
    rcases hr' with h | ⟨t, rfl⟩
    · exact C136_rest N hN cap cap (fun _ => Nat.le_refl _) hc es es' h p
    · rw [(run_alike hN hc es).1, (run_alike hN hc (es ++ t)).1]
      simpa [img] using (Net.hist_mono (up N) cap es t p).length_le
  rw [C136_ok N hN cap hc es p, C136_ok N hN cap hc es' p, Nat.le_antisymm h1 h2]

/-- **C136**: if the network comes to rest in one history, every other one can be continued until it is at rest, with the
same limits or smaller ones. -/
theorem C136_reaches (N : Prog) (hN : N.proper) (cap cap' : Nat → Nat) (hc : ∀ c, cap c ≤ cap' c)
    (hc' : ∀ c, cap' c < 2 ^ 64) (es' : List Net.Ev) (hr : (run N cap' es').rest N) (es : List Net.Ev) :
    ∃ more, (run N cap (es ++ more)).rest N := by
  have hlt : ∀ c, cap c < 2 ^ 64 := fun c => Nat.lt_of_le_of_lt (hc c) (hc' c)
  rw [(run_alike hN hc' es').1] at hr
  obtain ⟨more, hm⟩ := Net.C110_reaches (up N) (up_proper hN) cap cap' hc es' ((rest_up _).1 hr) es
  exact ⟨more, by rw [(run_alike hN hlt _).1]; exact (rest_up _).2 hm⟩

/-- **C136**: whatever the limits are, at rest everybody has got at least as far as when readers and writers meet. -/
theorem C136_meets (N : Prog) (hN : N.proper) (k : Nat → Nat) (h : Meets N k) (cap : Nat → Nat) (hc : ∀ c, cap c < 2 ^ 64)
    (es : List Net.Ev) (hr : (run N cap es).rest N) (p : Nat) : k p ≤ ((run N cap es).hist p).length := by
  obtain ⟨H, h1, h2⟩ := h.up
  rw [(run_alike hN hc es).1] at hr ⊢
  have h3 := (Net.C133_least (up N) (up_proper hN) H h1 cap es ((rest_up _).1 hr) p).length_le
  have h4 := congrArg List.length (h2 p)
  simp only [List.length_map, List.length_replicate] at h4
  show k p ≤ (((Net.run (up N) cap es).hist p).map down).length
  rw [List.length_map]; omega

/-- **C136**: so if readers and writers can meet, in some order, until everybody has stopped, there is no deadlock: with
any limits, whatever the executor does, the network can always be brought to rest, and at rest everybody has stopped,
after just as many operations. -/
theorem C136_finishes (N : Prog) (hN : N.proper) (k : Nat → Nat) (h : Meets N k) (hs : ∀ p, N.nth p (k p) = .stop)
    (cap : Nat → Nat) (hc : ∀ c, cap c < 2 ^ 64) :
    (∀ es, ∃ more, (run N cap (es ++ more)).rest N) ∧
    ∀ es, (run N cap es).rest N → ∀ p, (run N cap es).hist p = List.replicate (k p) .ok := by
  obtain ⟨H, h1, h2⟩ := h.up
  have hs' : ∀ p, (up N).act p (H p) = .stop := by
    intro p
    show upA (N.act p ((H p).map down)) = _
    rw [h2]; have := hs p; unfold Prog.nth at this; rw [this]; rfl
  obtain ⟨-, h3, h4⟩ := Net.C133_finishes (up N) (up_proper hN) H h1 hs' cap
  refine ⟨fun es => ?_, fun es hr p => ?_⟩
  · obtain ⟨more, hm⟩ := h3 es
    exact ⟨more, by rw [(run_alike hN hc _).1]; exact (rest_up _).2 hm⟩
  · rw [(run_alike hN hc es).1] at hr ⊢
    have := h4 es ((rest_up _).1 hr)
    show ((Net.run (up N) cap es).hist p).map down = _
    rw [this]; exact h2 p

/-! ## An example: ping and pong -/

/-- Coroutine 0 writes channel 0 and then reads channel 1, three times; coroutine 1 reads channel 0 and writes
channel 1. -/
def ping : Prog where
  act := fun p h => if 6 ≤ h.length then .stop
    else if p = 0 then (if h.length % 2 = 0 then .write 0 else .read 1)
    else if p = 1 then (if h.length % 2 = 0 then .read 0 else .write 1)
    else .stop
  rd := fun c => if c = 0 then 1 else 0
  wr := fun c => if c = 0 then 0 else 1

theorem ping_proper : ping.proper := by
  constructor
  all_goals
    intro p h c ha
    simp only [ping] at ha ⊢
    split at ha
    · cases ha
    · split at ha
      · split at ha <;> cases ha <;> simp_all
      · split at ha
        · split at ha <;> cases ha <;> simp_all
        · cases ha

/-- They meet six times, and then both have stopped. -/
theorem ping_meets : ∃ k, Meets ping k ∧ k 0 = 6 ∧ k 1 = 6 ∧ ∀ p, ping.nth p (k p) = .stop := by
  have h := Meets.start (N := ping)
  have h := h.meet (p := 1) (q := 0) (c := 0) (by decide) (by decide)
  have h := h.meet (p := 0) (q := 1) (c := 1) (by decide) (by decide)
  have h := h.meet (p := 1) (q := 0) (c := 0) (by decide) (by decide)
  have h := h.meet (p := 0) (q := 1) (c := 1) (by decide) (by decide)
  have h := h.meet (p := 1) (q := 0) (c := 0) (by decide) (by decide)
  have h := h.meet (p := 0) (q := 1) (c := 1) (by decide) (by decide)
  refine ⟨_, h, by decide, by decide, fun p => ?_⟩
  match p with
  | 0 => decide
  | 1 => decide
  | p + 2 =>
    unfold Prog.nth ping
    dsimp only
    split
    · rfl
    · simp

/-- So they always finish, with all limits. -/
example (cap : Nat → Nat) (hc : ∀ c, cap c < 2 ^ 64) (es : List Net.Ev) :
    ∃ more, (run ping cap (es ++ more)).rest ping := by
  obtain ⟨k, h, -, -, hs⟩ := ping_meets
  exact (C136_finishes ping ping_proper k h hs cap hc).1 es

/-- One history with limits 0 in which both go through. -/
example : ((run ping (fun _ => 0) [.go 0 true, .go 1 true, .run 0 0, .go 1 true, .go 0 true, .run 0 0, .run 1 0]).hist 1) =
    [.ok, .ok] := by decide

/-- Two coroutines that both read first. -/
def cross : Prog where
  act := fun p h => if p = 0 then (if h.length = 0 then .read 1 else if h.length = 1 then .write 0 else .stop)
    else if p = 1 then (if h.length = 0 then .read 0 else if h.length = 1 then .write 1 else .stop)
    else .stop
  rd := fun c => if c = 0 then 1 else 0
  wr := fun c => if c = 0 then 0 else 1

/-- **C136**: without such an order of meetings there can be a deadlock. -/
theorem C136_meets_needed : ∃ es, (run cross (fun _ => 5) es).rest cross ∧
    cross.nth 0 ((run cross (fun _ => 5) es).hist 0).length = .read 1 ∧
    cross.nth 1 ((run cross (fun _ => 5) es).hist 1).length = .read 0 := by
  have h0 : (run cross (fun _ => 5) [.go 0 true, .go 1 true]).pos 0 = .reading 1 0 := by decide
  have h1 : (run cross (fun _ => 5) [.go 0 true, .go 1 true]).pos 1 = .reading 0 0 := by decide
  refine ⟨[.go 0 true, .go 1 true], ⟨fun c => ?_, fun p hp => ?_⟩, by decide, by decide⟩
  · match c with
    | 0 => decide
    | 1 => decide
    | c + 2 => rfl
  · match p with
    | 0 => rw [h0] at hp; cases hp
    | 1 => rw [h1] at hp; cases hp
    | p + 2 => rfl

end Cobalt.VNet
