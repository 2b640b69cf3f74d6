import Verif.Lock.RetryLemmas
/-!
# C130: a semaphore with a timeout

include/boost/cobalt/channel.hpp:290-298, src/channel.cpp:92-123, include/boost/cobalt/detail/race.hpp:135-149, 274.
-/
namespace Cobalt.Lock

open Chan (Status Tok upd)

/-- The coroutines that gave up hold no place, and the others hold as many as there are coroutines inside: what the race
tells is what the semaphore counts. Giving up in line takes effect at once and leaves the others where they are; giving
up after the wake-up takes effect when the resumption runs. -/
theorem C130_told (k : BitVec 64) (users : Nat) (es : List Ev) (hN : users < 2 ^ 64) (us : List Nat)
    (hu : Are (exec k users es) us) :
    (exec k users es).ch.n.toNat = us.length ∧
    (∀ u i, Waits (exec k users es) u i →
      ((exec k users es).step (.timeout u)).ph u = .out ∧ Are ((exec k users es).step (.timeout u)) us) ∧
    (∀ u i m, (exec k users es).ph u = .wait i → (exec k users es).ch.posted[m]? = some (.w i) →
      ((exec k users es).steps [.timeout u, .run m]).ph u = .out ∧
      Are ((exec k users es).steps [.timeout u, .run m]) us) := by
  obtain ⟨l, h, _⟩ := Inv.steps es (Inv.init k users) hN
  have h : Inv k (exec k users es) l := h
  have hlen : l.length = us.length := Nat.le_antisymm
    (List.subperm_of_subset h.nd fun u hx => (hu.2 u).2 ((h.mem u).1 hx)).length_le
    (List.subperm_of_subset hu.1 fun u hx => (h.mem u).2 ((hu.2 u).1 hx)).length_le
  have hus : (exec k users es).users < 2 ^ 64 := by rw [exec_users]; exact hN
  generalize exec k users es = s at *
  refine ⟨by rw [h.cnt, hlen], fun u i hw => ?_, fun u i m hp hk => ?_⟩
  · obtain ⟨_, e1, _, _⟩ := quit_ph h hw
    refine ⟨by rw [e1]; simp, hu.1, fun v => ?_⟩
    rw [e1, hu.2]
    split
    · rename_i hv; rw [hv, hw.1]; simp
    · rfl
  · have hmem : Tok.w i ∈ s.ch.posted := List.mem_of_getElem? hk
    obtain ⟨e1, e2⟩ := spurn_ph h hp hmem
    have h1 := (h.timeout u).1
    have es' : s.steps [.timeout u, .run m] = (s.step (.timeout u)).step (.run m) := rfl
    have hk1 : (s.step (.timeout u)).ch.posted[m]? = some (.w i) := by rw [e1]; exact hk
    have ec : ((s.step (.timeout u)).step (.run m)).ch = (s.step (.timeout u)).ch.steps [.run m] := rfl
    have hca : ((s.step (.timeout u)).ch.W i).cancelled = true := by rw [e1]; simp [VChan.upd_apply]
    rw [steps_run h1.ok hk1, if_pos hca] at ec
    have ep : ∀ v, ((s.step (.timeout u)).step (.run m)).ph v = if v = u then .out else s.ph v := by
      intro v
      show goOn ((s.step (.timeout u)).step (.run m)).ch ((s.step (.timeout u)).ph v) = _
      rw [ec, e2]
      by_cases hv : v = u
      · subst hv
        simp only [hp, goOn, VChan.upd_apply, if_true]
        rw [if_pos (by simp), if_neg]
        simp only [List.mem_append, List.mem_singleton, not_or]
        refine ⟨fun hx => ?_, by simp⟩
        have := h1.ok.logW i _ hx
        rw [h1.wait v i (by rw [e2]; exact hp)] at this; simp at this
      · simp only [hv, if_false]
        refine goOn_eq (fun j hj => ?_) (h.stays v)
        have hne : j ≠ i := by rintro rfl; exact hv (h.one v u j hj hp)
        have := h1.wait v j (by rw [e2]; exact hj)
        simp [VChan.upd_apply, hne, this]
    rw [es']
    refine ⟨by rw [ep]; simp, hu.1, fun v => ?_⟩
    rw [ep, hu.2]
    split
    · rename_i hv; rw [hv, hp]; simp
    · rfl

/-- Giving up in line and trying again brings a coroutine in if and only if a place is free, and touches nobody else. -/
theorem C130_retry (k : BitVec 64) (users : Nat) (es : List Ev) (hN : users < 2 ^ 64) (us : List Nat)
    (hu : Are (exec k users es) us) (u i : Nat) (hw : Waits (exec k users es) u i) :
    (((exec k users es).steps (retry u)).ph u = .inside ↔ us.length < k.toNat) ∧
    ∀ v, v ≠ u → ((exec k users es).steps (retry u)).ph v = (exec k users es).ph v := by
  obtain ⟨l, h, _⟩ := Inv.steps es (Inv.init k users) hN
  have h : Inv k (exec k users es) l := h
  have hlen : l.length = us.length := Nat.le_antisymm
    (List.subperm_of_subset h.nd fun u hx => (hu.2 u).2 ((h.mem u).1 hx)).length_le
    (List.subperm_of_subset hu.1 fun u hx => (h.mem u).2 ((hu.2 u).1 hx)).length_le
  obtain ⟨_, e1, e2, _⟩ := retry_ph h (by rw [exec_users]; exact hN) hw
  exact ⟨by rw [e1, hlen], e2⟩

/-- C130, exactly: once everything scheduled has run, somebody waits although a place is free if and only if somebody
waits who has not been woken, and those inside and those woken who have not given up are fewer than the places. -/
theorem C130_exact (k : BitVec 64) (users : Nat) (es : List Ev) (hN : users < 2 ^ 64) (us : List Nat)
    (hu : Are (exec k users es) us) :
    ¬ Awake k (drain (exec k users es)) ↔
      (∃ u i, Waits (exec k users es) u i) ∧ us.length + woken (exec k users es) < k.toNat := by
  obtain ⟨hpo, vs, hv, hl⟩ := C99_drained k users es hN us hu
  obtain ⟨l, h, _⟩ := Inv.steps es (Inv.init k users) hN
  have h : Inv k (exec k users es) l := h
  have hus : (exec k users es).users < 2 ^ 64 := by rw [exec_users]; exact hN
  have hpo : (drain (exec k users es)).ch.posted = [] := hpo
  have hv : Are (drain (exec k users es)) vs := hv
  have hsame : ∀ ws : List Nat, ws.Nodup → (∀ u, u ∈ ws ↔ (drain (exec k users es)).ph u = .inside) →
      ws.length = vs.length := fun ws h1 h2 => Nat.le_antisymm
    (List.subperm_of_subset h1 fun u hx => (hv.2 u).2 ((h2 u).1 hx)).length_le
    (List.subperm_of_subset hv.1 fun u hx => (h2 u).2 ((hv.2 u).1 hx)).length_le
  constructor
  · intro hn
    have : ∃ u i, (drain (exec k users es)).ph u = .wait i ∧ vs.length < k.toNat := by
      refine Classical.byContradiction fun hx => hn fun ws h1 h2 _ u i hp => ?_
      rw [hsame ws h1 h2]
      exact Nat.le_of_not_lt fun hlt => hx ⟨u, i, hp, hlt⟩
    obtain ⟨u, i, hp, hlt⟩ := this
    refine ⟨⟨u, i, (passes_ph u i _ h hus).1 ⟨hp, ?_⟩⟩, by omega⟩
    show _ ∉ (drain (exec k users es)).ch.posted
    rw [hpo]; simp
  · rintro ⟨⟨u, i, hw⟩, hlt⟩ ha
    have := ha vs hv.1 hv.2 hpo u i ((passes_ph u i _ h hus).2 hw).1
    omega

/-- With nothing scheduled, one round of giving up and trying again by those who wait heals it: as many are inside
afterwards as there are places or coroutines that want one. -/
theorem C130_heals (k : BitVec 64) (users : Nat) (es : List Ev) (hN : users < 2 ^ 64) (us ws : List Nat)
    (hu : Are (exec k users es) us) (hle : us.length ≤ k.toNat) (hpo : (exec k users es).ch.posted = [])
    (hnd : ws.Nodup) (hws : ∀ u ∈ ws, ∃ i, (exec k users es).ph u = .wait i) :
    ∃ vs, Are ((exec k users es).steps (ws.flatMap retry)) vs ∧ vs.length = min k.toNat (us.length + ws.length) := by
  obtain ⟨l, h, _⟩ := Inv.steps es (Inv.init k users) hN
  have h : Inv k (exec k users es) l := h
  have hlen : l.length = us.length := Nat.le_antisymm
    (List.subperm_of_subset h.nd fun u hx => (hu.2 u).2 ((h.mem u).1 hx)).length_le
    (List.subperm_of_subset hu.1 fun u hx => (h.mem u).2 ((hu.2 u).1 hx)).length_le
  have hus : (exec k users es).users < 2 ^ 64 := by rw [exec_users]; exact hN
  rw [← hlen] at hle ⊢
  exact heals ws h hus hle hpo hnd hws

/-- Coroutine 0 leaves and wakes coroutine 1, whose timer expires before it runs; coroutine 2 is not woken. -/
def spurned : List Ev := [.acquire 0 true, .acquire 1 true, .acquire 2 true, .release 0 true, .timeout 1, .run 0]

/-- C130 does not hold: nobody is inside, nothing is scheduled, and coroutine 2 waits. -/
theorem C130_violated : ¬ C130 := by
  intro h
  obtain ⟨l, hv, _⟩ := Inv.steps spurned (Inv.init 1 3) (by decide)
  have hn : l.length = 0 := by
    rw [← hv.cnt]
    show (exec 1 3 spurned).ch.n.toNat = 0
    decide
  have := h 1 3 spurned (by decide) (by intro u; simp [spurned]) l hv.nd hv.mem (by decide) 2 2 (by decide)
  rw [hn] at this
  exact absurd this (by decide)

/-- What holds of C130: nobody waits for nothing if no coroutine gives up between its wake-up and its resumption.
Missing from `C130`: the condition `SparesAll`, see `C130_violated`; `C130_exact` says what it comes to without. -/
theorem C130_partial (k : BitVec 64) (users : Nat) (es : List Ev) (hN : users < 2 ^ 64)
    (hs : SparesAll (St.init k users) es) : Awake k (exec k users es) := by
  obtain ⟨l, h, _⟩ := Inv.steps es (Inv.init k users) hN
  have hw := Inv.wks es (Inv.init k users) hN hs (VChan.Wk.init k)
  have h : Inv k (exec k users es) l := h
  have hw : VChan.Wk (exec k users es).ch none := hw
  intro us hnd hus hpo u i hu
  have hlen : l.length ≤ us.length :=
    (List.subperm_of_subset h.nd fun u hx => (hus u).2 ((h.mem u).1 hx)).length_le
  have hq := h.inLine ⟨hu, by rw [hpo]; simp⟩
  have := hw.w (List.ne_nil_of_mem hq)
  rw [hpo, h.limit, h.cnt] at this
  have : k.toNat ≤ l.length := by simpa using this
  omega

/-- The second one gives up in line, the third gets in when the first leaves. -/
example : SparesAll (St.init 1 3) [.acquire 0 true, .acquire 1 true, .acquire 2 true, .timeout 1, .release 0 true, .run 0] ∧
    (exec 1 3 [.acquire 0 true, .acquire 1 true, .acquire 2 true, .timeout 1, .release 0 true, .run 0]).ph 2 = .inside ∧
    (exec 1 3 [.acquire 0 true, .acquire 1 true, .acquire 2 true, .timeout 1, .release 0 true, .run 0]).ph 1 = .out := by
  decide

/-- The same with the second woken: the third waits, and comes in when it tries again. -/
example : Are (exec 1 3 (spurned.take 5)) [] ∧ woken (exec 1 3 (spurned.take 5)) = 0 ∧
    Waits (exec 1 3 (spurned.take 5)) 2 2 ∧ (exec 1 3 spurned).ph 2 = .wait 2 ∧
    ((exec 1 3 spurned).steps (retry 2)).ph 2 = .inside := by
  refine ⟨?_, by decide, by decide, by decide, by decide⟩
  obtain ⟨l, hv, _⟩ := Inv.steps (spurned.take 5) (Inv.init 1 3) (by decide)
  have hn : l.length = 0 := by
    rw [← hv.cnt]
    show (exec 1 3 (spurned.take 5)).ch.n.toNat = 0
    decide
  obtain rfl := List.eq_nil_of_length_eq_zero hn
  exact ⟨hv.nd, hv.mem⟩

end Cobalt.Lock
