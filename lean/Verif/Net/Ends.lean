import Verif.Net.Det
/-! Helper: a network that can come to rest does. -/
namespace Cobalt.Chan

theorem resumeR_ends (s : St) (i : Nat) : (s.resumeR i).ub = true ∨ ∃ x, Obs.doneR i x ∈ (s.resumeR i).log := by
  have wl : ∀ t : St, t.wakeWriter.log = t.log := by
    intro t; unfold St.wakeWriter; split
    · rfl
    · dsimp only; split
      · split <;> rfl
      · rfl
  unfold St.resumeR
  repeat' split
  · right; exact ⟨.brokenPipe, by simp [St.endR]⟩
  · right; exact ⟨.aborted, by simp [St.endR]⟩
  · left; rfl
  all_goals
    right
    rw [wl]
    exact ⟨_, List.mem_append_right _ (List.mem_singleton.2 rfl)⟩

theorem resumeW_ends (s : St) (i : Nat) : ∃ x, Obs.doneW i x ∈ (s.resumeW i).log := by
  have wl : ∀ t : St, t.wakeReader.log = t.log := by
    intro t; unfold St.wakeReader; split
    · rfl
    · dsimp only; split
      · split <;> rfl
      · rfl
  unfold St.resumeW
  repeat' split
  · exact ⟨.brokenPipe, by simp [St.endW]⟩
  · exact ⟨.aborted, by simp [St.endW]⟩
  all_goals
    rw [wl]
    exact ⟨_, List.mem_append_right _ (List.mem_singleton.2 rfl)⟩

theorem run_ends {s : St} {k : Nat} {t : Tok} (ht : s.posted[k]? = some t) (hu : s.ub = false)
    (hu' : (s.step (.run k)).ub = false) :
    match t with
    | .r i => ∃ x, Obs.doneR i x ∈ (s.step (.run k)).log
    | .w j => ∃ x, Obs.doneW j x ∈ (s.step (.run k)).log := by
  have he : s.step (.run k) = s.run k := by simp [St.step, hu]
  rw [he] at hu' ⊢
  unfold St.run at *
  cases t with
  | r i =>
    simp only [ht] at hu' ⊢
    rcases resumeR_ends { s with posted := s.posted.eraseIdx k } i with h | h
    · rw [h] at hu'; cases hu'
    · exact h
  | w j =>
    simp only [ht] at hu' ⊢
    exact resumeW_ends _ _

theorem log_dropR (s : St) (i : Nat) : (s.step (.dropR i)).log = s.log := by
  unfold St.step; split
  · rfl
  · dsimp only; unfold St.dropR; split <;> rfl

end Cobalt.Chan

namespace Cobalt.Net
open Chan (upd resultOf endedR endedW)

/-- Coroutine `p` has got further. -/
def Got (s s' : St) (p : Nat) : Prop := s.pos p ≠ .idle ∧ s'.pos p = .idle ∧ ∃ x, s'.hist p = s.hist p ++ [x]

/-- Running a resumption makes somebody get further. -/
theorem run_got {N : Prog} {s : St} (i : NI N s) {c k : Nat} (hk : k < (s.ch c).posted.length) :
    ∃ p, Got s (s.on N c (.run k)) p := by
  have li := i.link c
  have ci := (li.run k).ci
  obtain ⟨t, ht⟩ : ∃ t, (s.ch c).posted[k]? = some t := ⟨_, List.getElem?_eq_getElem hk⟩
  have hmem := List.mem_of_getElem? ht
  have he := Chan.run_ends ht li.ci.j.ub ci.j.ub
  cases t with
  | r n =>
    have hs := (li.ci.h.rpost n hmem).1
    have hr := CI.actR_only li.ci (x := n) (.inl hs)
    obtain ⟨x, hx⟩ := he
    have hres : resultOf ((s.ch c).step (.run k)).log n ≠ none := by
      intro h
      exact Chan.resultOf_none.1 h ((Chan.mem_endedR _ _).2 ⟨x, hx⟩)
    have hpos := rdOn_some hr
    refine ⟨N.rd c, ?_⟩
    have h1 : (St.settleR N { s with ch := upd s.ch c ((s.ch c).step (.run k)) } c).pos (N.rd c) = .idle ∧
        ∃ x, (St.settleR N { s with ch := upd s.ch c ((s.ch c).step (.run k)) } c).hist (N.rd c) =
          s.hist (N.rd c) ++ [x] := by
      unfold St.settleR
      dsimp only
      rw [hr, upd_self]
      dsimp only
      cases hy : resultOf ((s.ch c).step (.run k)).log n with
      | none => exact absurd hy hres
      | some y => exact ⟨upd_self _ _ _, _, upd_self _ _ _⟩
    refine ⟨by rw [hpos]; simp, ?_⟩
    unfold St.on
    have h2 := settleW_moves N (St.settleR N { s with ch := upd s.ch c ((s.ch c).step (.run k)) } c) c (N.rd c)
    generalize St.settleR N { s with ch := upd s.ch c ((s.ch c).step (.run k)) } c = u at *
    rcases h2 with ⟨b1, b2⟩ | ⟨b1, -⟩
    · rw [b1, b2]; exact h1
    · exact absurd h1.1 b1
  | w n =>
    have hs := (li.ci.h.wpost n hmem).1
    have hw : (s.pos (N.wr c)).wrOn c = some n := by
      have hlt : n < (s.ch c).nextW := by
        rcases Nat.lt_or_ge n (s.ch c).nextW with h4 | h4
        · exact h4
        · rw [li.ci.h.wnew n h4] at hs; cases hs
      rcases li.ci.allW n hlt with h4 | h4
      · exact h4.1
      · rw [hs] at h4; cases h4.2.1
    obtain ⟨x, hx⟩ := he
    have hres : Pipe.resultOfW ((s.ch c).step (.run k)).log n ≠ none := by
      intro h
      exact Pipe.resultOfW_none.1 h ((Chan.mem_endedW _ _).2 ⟨x, hx⟩)
    have hpos := wrOn_some hw
    refine ⟨N.wr c, by rw [hpos]; simp, ?_⟩
    unfold St.on
    have h1 := settleR_moves N { s with ch := upd s.ch c ((s.ch c).step (.run k)) } c (N.wr c)
    have hlog : ((St.settleR N { s with ch := upd s.ch c ((s.ch c).step (.run k)) } c).ch c).log =
        ((s.ch c).step (.run k)).log := by
      unfold St.settleR
      split
      · split
        · dsimp only; rw [upd_self, upd_self, Chan.log_dropR]
        · dsimp only; rw [upd_self]
      · dsimp only; rw [upd_self]
    have h1' : (St.settleR N { s with ch := upd s.ch c ((s.ch c).step (.run k)) } c).hist (N.wr c) = s.hist (N.wr c) ∧
        (St.settleR N { s with ch := upd s.ch c ((s.ch c).step (.run k)) } c).pos (N.wr c) = s.pos (N.wr c) := by
      unfold St.settleR
      split
      · rename_i j hj
        have hne : N.rd c ≠ N.wr c := by
          intro h
          have := rdOn_some hj
          rw [h, hpos] at this; cases this
        split
        · exact ⟨upd_ne _ _ hne.symm, upd_ne _ _ hne.symm⟩
        · exact ⟨rfl, rfl⟩
      · exact ⟨rfl, rfl⟩
    generalize St.settleR N { s with ch := upd s.ch c ((s.ch c).step (.run k)) } c = u at *
    unfold St.settleW
    rw [h1'.2, hw]
    dsimp only
    rw [hlog]
    cases hy : Pipe.resultOfW ((s.ch c).step (.run k)).log n with
    | none => exact absurd hy hres
    | some y => dsimp only; rw [h1'.1]; exact ⟨upd_self _ _ _, _, upd_self _ _ _⟩

/-- Who is never told to go on does nothing. -/
theorem untouched (N : Prog) (cap : Nat → Nat) (es : List Ev) (p : Nat) (hp : ∀ b, Ev.go p b ∉ es) :
    (run N cap es).hist p = [] ∧ (run N cap es).pos p = .idle := by
  induction es using snoc_ind with
  | h0 => exact ⟨rfl, rfl⟩
  | h1 es e ih =>
    obtain ⟨h1, h2⟩ := ih (fun b h => hp b (List.mem_append_left _ h))
    rw [run_snoc]
    generalize run N cap es = s at *
    have key : ∀ (t : St) c e, t.hist p = s.hist p → t.pos p = s.pos p →
        (t.on N c e).hist p = [] ∧ (t.on N c e).pos p = .idle := by
      intro t c e a b
      rcases on_moves N t c p e with h | h
      · rw [h.1, h.2, a, b]; exact ⟨h1, h2⟩
      · exact absurd (b.trans h2) h.1
    cases e with
    | run c k => exact key _ _ _ rfl rfl
    | go q b =>
      have hq : p ≠ q := fun h => hp b (by rw [h]; simp)
      simp only [St.step]
      split
      · cases N.act q (s.hist q) with
        | read c => exact key _ _ _ rfl (upd_ne _ _ hq)
        | write c v => exact key _ _ _ rfl (upd_ne _ _ hq)
        | close c => exact key _ _ _ (upd_ne _ _ hq) rfl
        | stop => exact ⟨h1, h2⟩
      · exact ⟨h1, h2⟩

/-- All coroutines that are told to go on have smaller numbers. -/
def bound : List Ev → Nat
  | [] => 0
  | .go p _ :: es => max (p + 1) (bound es)
  | .run _ _ :: es => bound es

theorem bound_spec (es : List Ev) (p : Nat) (h : bound es ≤ p) (b : Bool) : Ev.go p b ∉ es := by
  induction es with
  | nil => simp
  | cons e es ih =>
    cases e with
    | run c k =>
      simp only [bound] at h
      simp [ih h]
    | go q b' =>
      simp only [bound] at h
      have h1 : bound es ≤ p := by omega
      have h2 : p ≠ q := by omega
      simp [ih h1, h2]

def one : At → Nat
  | .idle => 1
  | _ => 0

theorem one_busy {a : At} (h : a ≠ .idle) : one a = 0 := by
  cases a <;> first | rfl | exact absurd rfl h

theorem one_le (a : At) : one a ≤ 1 := by cases a <;> simp [one]

/-- How much coroutine `p` has left to do if nothing comes of more than `l p` things. -/
def left (l : Nat → Nat) (s : St) (p : Nat) : Nat := 2 * (l p - (s.hist p).length) + one (s.pos p)

def total (l : Nat → Nat) (s : St) (b : Nat) : Nat := ((List.range b).map (left l s)).sum

theorem sum_lt (f g : Nat → Nat) (b : Nat) (hle : ∀ q, q < b → g q ≤ f q) (hlt : ∃ p, p < b ∧ g p < f p) :
    ((List.range b).map g).sum < ((List.range b).map f).sum := by
  have le : ∀ b, (∀ q, q < b → g q ≤ f q) → ((List.range b).map g).sum ≤ ((List.range b).map f).sum := by
    intro b
    induction b with
    | zero => intro _; simp
    | succ b ih =>
      intro h
      have h1 := ih (fun q hq => h q (by omega))
      have h2 := h b (by omega)
      simp only [List.range_succ, List.map_append, List.sum_append, List.map_cons, List.map_nil, List.sum_cons,
        List.sum_nil]
      omega
  induction b with
  | zero => obtain ⟨p, hp, -⟩ := hlt; omega
  | succ b ih =>
    obtain ⟨p, hp, hp'⟩ := hlt
    have h1 := le b (fun q hq => hle q (by omega))
    have h2 := hle b (by omega)
    simp only [List.range_succ, List.map_append, List.sum_append, List.map_cons, List.map_nil, List.sum_cons,
      List.sum_nil]
    by_cases hb : p = b
    · subst hb; omega
    · have := ih (fun q hq => hle q (by omega)) ⟨p, by omega, hp'⟩
      omega

theorem left_moves {t : Nat → Nat} {s s' : St} {p : Nat} (hl : (s'.hist p).length ≤ t p) (h : Moves s s' p) :
    left t s' p ≤ left t s p := by
  unfold left
  rcases h with ⟨h1, h2⟩ | ⟨h1, h2, x, h3⟩
  · rw [h1, h2]; exact Nat.le_refl _
  · rw [h3] at hl ⊢
    simp only [List.length_append, List.length_singleton] at hl ⊢
    rw [one_busy h1]
    have := one_le (s'.pos p)
    omega

theorem left_got {t : Nat → Nat} {s s' : St} {p : Nat} (hl : (s'.hist p).length ≤ t p) (h : Got s s' p) :
    left t s' p < left t s p := by
  unfold left
  obtain ⟨h1, h2, x, h3⟩ := h
  rw [h3] at hl ⊢
  simp only [List.length_append, List.length_singleton] at hl ⊢
  rw [one_busy h1]
  have := one_le (s'.pos p)
  omega

/-- No coroutine gets beyond `l`, and only the first `b` do anything. -/
structure Within (N : Prog) (cap : Nat → Nat) (l : Nat → Nat) (b : Nat) : Prop where
  len : ∀ es p, ((run N cap es).hist p).length ≤ l p
  who : ∀ es p, N.act p ((run N cap es).hist p) ≠ .stop → p < b

theorem Within.of_rest {N : Prog} (hN : N.proper) {cap cap' : Nat → Nat} (hc : ∀ c, cap c ≤ cap' c) {es' : List Ev}
    (hr : (run N cap' es').rest N) : Within N cap (fun p => ((run N cap' es').hist p).length) (bound es') := by
  have hmax := fun es p => (rest_max hN (NI.run hN cap' es') hr (fun c => by rw [run_cap]; exact hc c) (cap := cap) es p)
  refine ⟨fun es p => (hmax es p).length_le, fun es p hp => ?_⟩
  apply Classical.byContradiction
  intro h
  obtain ⟨a, b⟩ := untouched N cap' es' p (bound_spec es' p (by omega))
  have h1 := hmax es p
  rw [a] at h1
  have h2 := List.prefix_nil.1 h1
  have h3 := hr.2 p b
  rw [a] at h3
  rw [h2] at hp
  exact hp h3

/-- Every event that does something leaves less to do. -/
theorem total_step {N : Prog} (hN : N.proper) {cap l : Nat → Nat} {b : Nat} (hW : Within N cap l b) (es : List Ev)
    {e : Ev} (hu : (run N cap es).useful N e) :
    total l (run N cap (es ++ [e])) b < total l (run N cap es) b := by
  have hlen := hW.len (es ++ [e])
  have i := NI.run hN cap es
  have hb := hW.who es
  have hbi : ∀ p, (run N cap es).pos p ≠ .idle → p < b := by
    intro p hp
    apply hb
    cases hq : (run N cap es).pos p with
    | idle => exact absurd hq hp
    | reading c k => rw [i.atR _ _ _ hq]; simp
    | writing c k => obtain ⟨v, hv⟩ := i.atW _ _ _ hq; rw [hv]; simp
  rw [run_snoc] at hlen ⊢
  generalize run N cap es = s at *
  refine sum_lt _ _ _ ?_ ?_
  · intro q _
    cases e with
    | run c k => exact left_moves (hlen q) (on_moves N s c q _)
    | go p conn =>
      have hu := hu
      simp only [St.step, if_pos hu.1] at hlen ⊢
      by_cases hq : q = p
      · subst hq
        cases ha : N.act q (s.hist q) with
        | stop => exact absurd ha hu.2
        | close c =>
          rw [ha] at hlen
          have hl := hlen q
          simp only [St.act] at hl ⊢
          unfold left
          rcases on_moves N { s with hist := upd s.hist q (s.hist q ++ [.ok]) } c q .close with h | h
          · rw [h.1, h.2, hu.1]
            dsimp only
            rw [upd_self]; simp only [List.length_append, List.length_singleton]; omega
          · exact absurd hu.1 h.1
        | read c =>
          rw [ha] at hlen
          have hl := hlen q
          simp only [St.act] at hl ⊢
          refine Nat.le_trans (left_moves hl (on_moves ..)) ?_
          unfold left; dsimp only; rw [upd_self, hu.1]; simp [one]
        | write c v =>
          rw [ha] at hlen
          have hl := hlen q
          simp only [St.act] at hl ⊢
          refine Nat.le_trans (left_moves hl (on_moves ..)) ?_
          unfold left; dsimp only; rw [upd_self, hu.1]; simp [one]
      · cases ha : N.act p (s.hist p) with
        | stop => exact absurd ha hu.2
        | close c =>
          rw [ha] at hlen
          have hl := hlen q
          simp only [St.act] at hl ⊢
          refine Nat.le_trans (left_moves hl (on_moves ..)) ?_
          unfold left; dsimp only; rw [upd_ne _ _ hq]; exact Nat.le_refl _
        | read c =>
          rw [ha] at hlen
          have hl := hlen q
          simp only [St.act] at hl ⊢
          refine Nat.le_trans (left_moves hl (on_moves ..)) ?_
          unfold left; dsimp only; rw [upd_ne _ _ hq]; exact Nat.le_refl _
        | write c v =>
          rw [ha] at hlen
          have hl := hlen q
          simp only [St.act] at hl ⊢
          refine Nat.le_trans (left_moves hl (on_moves ..)) ?_
          unfold left; dsimp only; rw [upd_ne _ _ hq]; exact Nat.le_refl _
  · cases e with
    | run c k =>
      obtain ⟨p, hp⟩ := run_got i hu
      exact ⟨p, hbi p hp.1, left_got (hlen p) hp⟩
    | go p conn =>
      have hu := hu
      refine ⟨p, hb p hu.2, ?_⟩
      have hl := hlen p
      simp only [St.step, if_pos hu.1] at hl ⊢
      cases ha : N.act p (s.hist p) with
      | stop => exact absurd ha hu.2
      | close c =>
        rw [ha] at hl
        simp only [St.act] at hl ⊢
        unfold left
        rcases on_moves N { s with hist := upd s.hist p (s.hist p ++ [.ok]) } c p .close with h | h
        · rw [h.1] at hl ⊢
          rw [h.2, hu.1]
          dsimp only at hl ⊢
          rw [upd_self] at hl ⊢
          simp only [List.length_append, List.length_singleton] at hl ⊢; omega
        · exact absurd hu.1 h.1
      | read c =>
        rw [ha] at hl
        simp only [St.act] at hl ⊢
        refine Nat.lt_of_le_of_lt (left_moves hl (on_moves ..)) ?_
        unfold left; dsimp only; rw [upd_self, hu.1]; simp [one]
      | write c v =>
        rw [ha] at hl
        simp only [St.act] at hl ⊢
        refine Nat.lt_of_le_of_lt (left_moves hl (on_moves ..)) ?_
        unfold left; dsimp only; rw [upd_self, hu.1]; simp [one]

theorem usefuls_bound {N : Prog} (hN : N.proper) {cap l : Nat → Nat} {b : Nat} (hW : Within N cap l b)
    (es more : List Ev) (hu : (run N cap es).usefuls N more) :
    more.length + total l (run N cap (es ++ more)) b ≤ total l (run N cap es) b := by
  induction more generalizing es with
  | nil => simp
  | cons e more ih =>
    obtain ⟨h1, h2⟩ := hu
    rw [← run_snoc] at h2
    have h3 := ih (es ++ [e]) h2
    have h4 := total_step hN hW es h1
    rw [List.append_assoc, List.singleton_append] at h3
    simp only [List.length_cons]; omega

theorem not_rest {N : Prog} {s : St} (h : ¬ s.rest N) : ∃ e, s.useful N e := by
  apply Classical.byContradiction
  intro hn
  refine h ⟨fun c => ?_, fun p hp => ?_⟩
  · apply Classical.byContradiction
    intro hc
    exact hn ⟨.run c 0, List.length_pos_iff.2 hc⟩
  · apply Classical.byContradiction
    intro hc
    exact hn ⟨.go p false, hp, hc⟩

theorem reaches {N : Prog} (hN : N.proper) {cap l : Nat → Nat} {b : Nat} (hW : Within N cap l b) (es : List Ev) :
    ∃ more, (run N cap (es ++ more)).rest N := by
  generalize hn : total l (run N cap es) b = n
  induction n using Nat.strongRecOn generalizing es with
  | _ n ih =>
    by_cases h : (run N cap es).rest N
    · exact ⟨[], by rw [List.append_nil]; exact h⟩
    · obtain ⟨e, he⟩ := not_rest h
      have h1 := total_step hN hW es he
      rw [hn] at h1
      obtain ⟨more, hm⟩ := ih _ h1 (es ++ [e]) rfl
      exact ⟨e :: more, by rw [List.append_assoc, List.singleton_append] at hm; exact hm⟩

/-- Programs that stop in any case. -/
theorem Within.of_bound {N : Prog} (hN : N.proper) (cap : Nat → Nat) {l : Nat → Nat} {b : Nat}
    (hl : ∀ p h, l p ≤ h.length → N.act p h = .stop) (hb : ∀ p, b ≤ p → l p = 0) : Within N cap l b := by
  have hlt : ∀ p h, N.act p h ≠ .stop → h.length < l p := fun p h hn =>
    Classical.byContradiction fun h1 => hn (hl p h (by omega))
  refine ⟨fun es p => ?_, fun es p hp => ?_⟩
  · induction es using snoc_ind with
    | h0 => exact Nat.zero_le _
    | h1 es e ih =>
      have i := NI.run hN cap es
      rw [run_snoc]
      generalize run N cap es = s at *
      have hbusy : s.pos p ≠ .idle → (s.hist p).length < l p := by
        intro h
        apply hlt
        cases hq : s.pos p with
        | idle => exact absurd hq h
        | reading c k => rw [i.atR _ _ _ hq]; simp
        | writing c k => obtain ⟨v, hv⟩ := i.atW _ _ _ hq; rw [hv]; simp
      have key : ∀ (t : St) c e, t.hist p = s.hist p → (t.pos p ≠ .idle → (s.hist p).length < l p) →
          ((t.on N c e).hist p).length ≤ l p := by
        intro t c e a b
        rcases on_moves N t c p e with h | ⟨h1, -, x, h3⟩
        · rw [h.1, a]; exact ih
        · rw [h3, a]; simp only [List.length_append, List.length_singleton]; exact b h1
      cases e with
      | run c k => exact key _ _ _ rfl hbusy
      | go q conn =>
        simp only [St.step]
        split
        · rename_i hq
          by_cases hpq : p = q
          · subst hpq
            cases ha : N.act p (s.hist p) with
            | read c => exact key _ _ _ rfl fun _ => hlt _ _ (by rw [ha]; simp)
            | write c v => exact key _ _ _ rfl fun _ => hlt _ _ (by rw [ha]; simp)
            | stop => exact ih
            | close c =>
              have h1 : (s.hist p).length < l p := hlt _ _ (by rw [ha]; simp)
              simp only [St.act]
              rcases on_moves N { s with hist := upd s.hist p (s.hist p ++ [.ok]) } c p .close with h | h
              · rw [h.1]; dsimp only; rw [upd_self]
                simp only [List.length_append, List.length_singleton]; exact h1
              · exact absurd hq h.1
          · cases N.act q (s.hist q) with
            | read c => exact key _ _ _ rfl (by dsimp only; rw [upd_ne _ _ hpq]; exact hbusy)
            | write c v => exact key _ _ _ rfl (by dsimp only; rw [upd_ne _ _ hpq]; exact hbusy)
            | close c => exact key _ _ _ (upd_ne _ _ hpq) hbusy
            | stop => exact ih
        · exact ih
  · apply Classical.byContradiction
    intro h
    exact hp (hl _ _ (by rw [hb p (by omega)]; exact Nat.zero_le _))

end Cobalt.Net
