import Verif.Chan.DtorLemmas
/-!
# Properties of the destructor of a channel
-/
namespace Cobalt.Chan

/-- **C76**: destroying a channel destroys who waits for it, and returns; it is not used afterwards.
For every history of the channel, wherever the operations live. -/
def C76 : Prop := ∀ (cap : Nat) (es : List Ev) (place : Tok → Place) (live : Nat → Nat),
  (exec cap es).ub = false → ((exec cap es).dtor live).Consistent place →
  Destroyed (exec cap es) place live

theorem dtor_waited {s : St} (h : WF s none) (hs : s.noStale) (live : Nat → Nat) :
    (s.dtor live).Waited := by
  intro t ht
  simp only [St.dtor, List.mem_append, List.mem_map] at ht ⊢
  rcases ht with ⟨i, hi, rfl⟩ | ⟨i, hi, rfl⟩
  · rcases (h.rlink i hi).2 with h' | h'
    · exact h'.2.1
    · rw [hs.1 i hi] at h'; cases h'.1
  · rcases (h.wlink i hi).2.2 with h' | h'
    · exact h'.2.1
    · rw [hs.2 i hi] at h'; cases h'.1

theorem dtor_nodup {s : St} (h : WF s none) (live : Nat → Nat) : (s.dtor live).q.Nodup := by
  simp only [St.dtor]
  rcases h.excl with he | he
  · rw [he]
    simpa using h.ndW.map (f := Tok.w) (fun _ _ he => Tok.w.inj he)
  · rw [he]
    simpa using h.ndR.map (f := Tok.r) (fun _ _ he => Tok.r.inj he)

theorem dtor_waits {s : St} (h : WF s none) (hs : s.noStale) (live : Nat → Nat) (t : Tok) :
    t ∈ (s.dtor live).q ↔ s.waits t := by
  cases t with
  | r i =>
    have : Tok.r i ∈ (s.dtor live).q ↔ i ∈ s.rq := by simp [St.dtor]
    rw [this]
    refine ⟨fun hi => ⟨hs.1 i hi, fun hp => (h.rpost i hp).2.2.1 hi⟩, fun hw => ?_⟩
    rcases h.rsusp i hw.1 with h' | h' | h'
    · exact (h.rwait i h').2
    · exact absurd h' hw.2
    · cases h'
  | w i =>
    have : Tok.w i ∈ (s.dtor live).q ↔ i ∈ s.wq := by simp [St.dtor]
    rw [this]
    refine ⟨fun hi => ⟨hs.2 i hi, fun hp => (h.wpost i hp).2.2.1 hi⟩, fun hw => ?_⟩
    rcases h.wsusp i hw.1 with h' | h' | h'
    · exact (h.wwait i h').2
    · exact absurd h' hw.2
    · cases h'

/-- **C76, exactly**, if no interrupted operation is in a queue (C09): the operations that live in
combinators belong to their last child, and only refused writes are still to be resumed. -/
theorem C76_exact (cap : Nat) (es : List Ev) (place : Tok → Place) (live : Nat → Nat)
    (hu : (exec cap es).ub = false) (hs : (exec cap es).noStale)
    (hc : ((exec cap es).dtor live).Consistent place) :
    Destroyed (exec cap es) place live ↔
      ((exec cap es).dtor live).Last place ∧
      ∀ t ∈ (exec cap es).posted, ∃ i, t = .w i ∧
        (((exec cap es).W i).closedF = true ∨ ((exec cap es).W i).cancelled = true) := by
  have h := (reach hu).1
  have hw := dtor_waited h hs live
  have hn := dtor_nodup h live
  have key := D.drains (place := place) _ _ rfl hn hw (hc.counted hw)
  have hun : (∀ t ∈ (exec cap es).posted, (exec cap es).usesChannel t = false) ↔
      ∀ t ∈ (exec cap es).posted, ∃ i, t = .w i ∧
        (((exec cap es).W i).closedF = true ∨ ((exec cap es).W i).cancelled = true) := by
    refine forall_congr' fun t => forall_congr' fun _ => ?_
    cases t with
    | r i => simp [St.usesChannel]
    | w i => simp only [St.usesChannel, Tok.w.injEq, exists_eq_left', Bool.not_eq_false',
        Bool.or_eq_true]
  rw [← hun]
  refine ⟨fun hd => ⟨?_, hd.unused⟩, fun hl => ⟨?_, hl.2⟩⟩
  · obtain ⟨n, h1, -⟩ := hd.returns
    exact key.1.mp ⟨n, h1⟩
  · obtain ⟨n, h1, h2⟩ := key.2 hl.1
    refine ⟨n, h1, ?_, fun t => ?_⟩
    · rw [h2]; simpa [St.dtor] using hn
    · rw [h2, ← dtor_waits h hs live]; simp [St.dtor]

/-- **C76, what holds**: coroutines that await operations themselves, and not through combinators,
are destroyed, and nothing is used if nothing is to be resumed.
Missing: interrupted operations (`C76_stale`), combinators (`C76_race_violated`) and resumptions that
are posted (`C76_closed_violated`). -/
theorem C76_partial (cap : Nat) (es : List Ev) (place : Tok → Place) (live : Nat → Nat)
    (hu : (exec cap es).ub = false) (hs : (exec cap es).noStale)
    (hp : (exec cap es).posted = []) (hown : ∀ t, place t = .own) :
    Destroyed (exec cap es) place live := by
  refine (C76_exact cap es place live hu hs (fun g => ?_)).mpr ⟨fun a t b g _ h => ?_, ?_⟩
  · rw [List.filter_eq_nil_iff.mpr (fun t _ => by simp [hown, Place.group])]
    exact Nat.zero_le _
  · rw [hown] at h; cases h
  · rw [hp]; simp

/-- Two readers wait. -/
example : Destroyed (exec 1 [.mkR, .mkR, .awaitR 0 true false [], .awaitR 1 true false []])
      (fun _ => .own) (fun _ => 0) ∧
    (exec 1 [.mkR, .mkR, .awaitR 0 true false [], .awaitR 1 true false []]).waits (.r 1) :=
  ⟨C76_partial _ _ _ _ (by decide) (by decide) (by decide) fun _ => rfl, by
    unfold St.waits; decide⟩

/-- A `gather` of which both children wait through readers of the channel. -/
example : Destroyed (exec 1 [.mkR, .mkR, .awaitR 0 true false [], .awaitR 1 true false []])
      (fun _ => .fork 0) (fun _ => 2) := by
  refine (C76_exact _ _ _ _ (by decide) (by decide) (fun g => ?_)).mpr
    ⟨fun _ _ _ _ _ h => (nomatch h), fun t ht => ?_⟩
  · exact Nat.le_trans (List.length_filter_le _ _) (Nat.le_refl 2)
  · have h : t ∈ ([] : List Tok) := ht
    cases h

/-- Two writers wait when the channel is closed and destroyed. -/
example : Destroyed (exec 0 [.mkW, .mkW, .awaitW 0 true false [], .awaitW 1 true false [], .close])
      (fun _ => .own) (fun _ => 0) := by
  refine (C76_exact _ _ _ _ (by decide) (by decide) (fun _ => ?_)).mpr
    ⟨fun _ _ _ _ _ h => (nomatch h), fun t ht => ?_⟩
  · exact Nat.le_refl 0
  · have h : t ∈ [Tok.w 0, Tok.w 1] := ht
    simp only [List.mem_cons, List.not_mem_nil, or_false] at h
    rcases h with rfl | rfl
    · exact ⟨0, rfl, by decide⟩
    · exact ⟨1, rfl, by decide⟩

/-- **C76 is violated** by interrupted operations: while one is in a queue the destructor does not
return, unless it lives in a combinator. -/
theorem C76_stale (cap : Nat) (es : List Ev) (place : Tok → Place) (live : Nat → Nat) (t : Tok)
    (ht : t ∈ ((exec cap es).dtor live).q) (hw : ((exec cap es).dtor live).waiting t = false)
    (hp : ∀ g, place t ≠ .ref g) (n : Nat) : (((exec cap es).dtor live).turns place n).q ≠ [] :=
  fun h => by
    have := D.stale hp n _ hw ht
    rw [h] at this
    cases this

/-- A race is interrupted, and the channel is destroyed before the race. -/
example : ∀ n, (((exec 1 [.mkR, .awaitR 0 true true [], .intR 0]).dtor fun _ => 0).turns
    (fun _ => .own) n).q ≠ [] :=
  C76_stale _ _ _ _ (.r 0) (by decide) (by decide) (fun _ => by simp)

/-- **C76 is violated** by combinators: if a child of `race(c.read(), other)` waits and the other
one, too, the destructor does not return. -/
theorem C76_race_violated :
    ∀ n, (((exec 1 [.mkR, .awaitR 0 true true []]).dtor fun _ => 2).turns (fun _ => .ref 0) n).q
      ≠ [] := by
  intro n hn
  have := (D.drains (place := fun _ => .ref 0) _
    ((exec 1 [.mkR, .awaitR 0 true true []]).dtor fun _ => 2) rfl (by decide) (by
      intro t ht
      have : t = .r 0 := by
        have h : t ∈ [Tok.r 0] := ht
        simpa using h
      rw [this]; decide) (fun g =>
        Nat.le_trans (List.length_filter_le _ _) (show 1 ≤ 2 by decide))).1.mp ⟨n, hn⟩
  exact absurd (this [] (.r 0) [] 0 (by decide) rfl) (by decide)

/-- **C76 is violated** by closing a channel before it is destroyed: the reader that waited uses it
afterwards. -/
theorem C76_closed_violated :
    ∃ t ∈ (exec 1 [.mkR, .awaitR 0 true false [], .close]).posted,
      (exec 1 [.mkR, .awaitR 0 true false [], .close]).usesChannel t = true :=
  ⟨.r 0, by decide, by decide⟩

/-- **C76 is violated.** -/
theorem C76_violated : ¬ C76 := by
  intro h
  have := (h 1 [.mkR, .awaitR 0 true true []] (fun _ => .ref 0) (fun _ => 2) (by decide)
    (fun g => Nat.le_trans (List.length_filter_le _ _) (show 1 ≤ 2 by decide))).returns
  obtain ⟨n, hn, -⟩ := this
  exact C76_race_violated n hn

end Cobalt.Chan
