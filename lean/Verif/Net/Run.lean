import Verif.Net.Inv
/-! Helper: the invariant of a network is kept. -/
namespace Cobalt.Net
open Chan (CI Set' Plain CK delivered endedR endedW startsW resultOf newOf upd)

theorem NI.init (N : Prog) (cap : Nat → Nat) : NI N (St.init cap) := by
  refine ⟨⟨fun _ => rfl, fun _ => ?_, fun _ _ _ h => (by cases h), fun _ _ _ h => (by cases h), fun _ => Good.nil _⟩,
    fun c => Li.init (cap c)⟩
  constructor <;> intro h <;> cases h

/-- Something that happens on channel `c` to coroutine `p` is not noticed on other channels. -/
theorem others {N : Prog} {s s' : St} (i : NI N s) {c p : Nat} {a : Act} (hp : s.pos p = .idle)
    (ha : a = .read c ∨ (∃ v, a = .write c v) ∨ a = .close c)
    (hch : ∀ c', c' ≠ c → s'.ch c' = s.ch c') (hv : ∀ c', c' ≠ c → s'.vals c' = s.vals c')
    (hpos : ∀ q, q ≠ p → s'.pos q = s.pos q) (hhist : ∀ q, q ≠ p → s'.hist q = s.hist q)
    (hst : started N s' p = started N s p ++ [a])
    (hrec : ∀ c', received (N.act p) c' (s'.hist p) = received (N.act p) c' (s.hist p))
    (hr : ∀ c', c' ≠ c → (s'.pos p).rdOn c' = none) (hw : ∀ c', c' ≠ c → (s'.pos p).wrOn c' = none)
    {c' : Nat} (hc : c' ≠ c) :
    LiAt N s' c' ∧ s'.vals c' = wrote c' (started N s' (N.wr c')) ∧
      ((s'.ch c').closed = true ↔ Act.close c' ∈ started N s' (N.wr c')) := by
  have hs : sent c' (started N s' (N.wr c')) = sent c' (started N s (N.wr c')) ∧
      wrote c' (started N s' (N.wr c')) = wrote c' (started N s (N.wr c')) ∧
      (Act.close c' ∈ started N s' (N.wr c') ↔ Act.close c' ∈ started N s (N.wr c')) := by
    by_cases h : N.wr c' = p
    · rw [h, hst, sent_snoc, wrote_snoc]
      rcases ha with rfl | ⟨v, rfl⟩ | rfl <;> simp [Ne.symm hc, hc]
    · have : started N s' (N.wr c') = started N s (N.wr c') := by
        unfold started; rw [hpos _ h, hhist _ h]
      rw [this]; exact ⟨rfl, rfl, Iff.rfl⟩
  have e1 : received (N.act (N.rd c')) c' (s'.hist (N.rd c')) = received (N.act (N.rd c')) c' (s.hist (N.rd c')) := by
    by_cases h : N.rd c' = p
    · rw [h]; exact hrec c'
    · rw [hhist _ h]
  have e2 : (s'.pos (N.rd c')).rdOn c' = (s.pos (N.rd c')).rdOn c' := by
    by_cases h : N.rd c' = p
    · rw [h, hr c' hc, hp]; rfl
    · rw [hpos _ h]
  have e3 : (s'.pos (N.wr c')).wrOn c' = (s.pos (N.wr c')).wrOn c' := by
    by_cases h : N.wr c' = p
    · rw [h, hw c' hc, hp]; rfl
    · rw [hpos _ h]
  refine ⟨?_, by rw [hv c' hc, hs.2.1]; exact i.vals c', by rw [hch c' hc, hs.2.2]; exact i.shut c'⟩
  unfold LiAt
  rw [hs.1, e1, e2, e3, hch c' hc, hv c' hc]
  exact i.link c'

theorem upd_upd {α : Type} (f : Nat → α) (i : Nat) (x y : α) : upd (upd f i x) i y = upd f i y := by
  funext j; simp only [upd]; split <;> rfl

theorem begun_busy (f : List Res → Act) {a : At} (h : List Res) (ha : a ≠ .idle) : begun f a h = done f h ++ [f h] := by
  unfold begun; rw [if_neg ha]
theorem begun_idle (f : List Res → Act) (h : List Res) : begun f .idle h = done f h := by
  unfold begun; rw [if_pos rfl]

theorem NI.read {N : Prog} (hN : N.proper) {s : St} (i : NI N s) {p c : Nat} (hp : s.pos p = .idle)
    (ha : N.act p (s.hist p) = .read c) (conn : Bool) : NI N (s.act N p conn (.read c)) := by
  simp only [St.act, St.on]
  rw [upd_self, upd_upd]
  apply NL.settle
  have hrd := hN.read _ _ _ ha
  have hst : started N { s with ch := upd s.ch c (((s.ch c).step .mkR).step (.awaitR (s.ch c).nextR conn false [])),
                                pos := upd s.pos p (.reading c (s.ch c).nextR) } p = started N s p ++ [.read c] := by
    unfold started
    dsimp only
    rw [upd_self, begun_busy _ _ (by simp), hp, begun_idle, ha]
  have hot := fun c' (hc : c' ≠ c) => others (s' := { s with ch := upd s.ch c (((s.ch c).step .mkR).step (.awaitR (s.ch c).nextR conn false [])), pos := upd s.pos p (.reading c (s.ch c).nextR) })
    (a := .read c) i hp (.inl rfl) (fun c' h => upd_ne _ _ h) (fun _ _ => rfl) (fun q h => upd_ne _ _ h) (fun _ _ => rfl) hst
    (fun _ => rfl) (fun c' h => by dsimp only; rw [upd_self]; simp [At.rdOn, Ne.symm h]) (fun c' h => by dsimp only; rw [upd_self]; rfl) hc
  have hs : sent c (started N { s with ch := upd s.ch c (((s.ch c).step .mkR).step (.awaitR (s.ch c).nextR conn false [])), pos := upd s.pos p (.reading c (s.ch c).nextR) } (N.wr c)) = sent c (started N s (N.wr c)) ∧
      wrote c (started N { s with ch := upd s.ch c (((s.ch c).step .mkR).step (.awaitR (s.ch c).nextR conn false [])), pos := upd s.pos p (.reading c (s.ch c).nextR) } (N.wr c)) = wrote c (started N s (N.wr c)) ∧
      (Act.close c ∈ started N { s with ch := upd s.ch c (((s.ch c).step .mkR).step (.awaitR (s.ch c).nextR conn false [])), pos := upd s.pos p (.reading c (s.ch c).nextR) } (N.wr c) ↔ Act.close c ∈ started N s (N.wr c)) := by
    by_cases h : N.wr c = p
    · rw [h, hst, sent_snoc, wrote_snoc]
      simp
    · have : ∀ ch, started N { s with ch := ch, pos := upd s.pos p (.reading c (s.ch c).nextR) } (N.wr c) =
          started N s (N.wr c) := by
        intro ch; unfold started; dsimp only; rw [upd_ne _ _ h]
      rw [this]; exact ⟨rfl, rfl, Iff.rfl⟩
  refine ⟨⟨fun c' => ?_, fun c' => ?_, fun q c' j hq => ?_, fun q c' j hq => ?_, i.good⟩, fun c' hc => (hot c' hc).1, ?_⟩
  · by_cases hc : c' = c
    · subst hc; rw [hs.2.1]; exact i.vals c'
    · exact (hot c' hc).2.1
  · by_cases hc : c' = c
    · subst hc; rw [hs.2.2]; dsimp only; rw [upd_self, (CK.step_read _ _ _).closed]; exact i.shut c'
    · exact (hot c' hc).2.2
  · dsimp only at hq ⊢
    by_cases h : q = p
    · subst h; rw [upd_self] at hq; cases hq; exact ha
    · rw [upd_ne _ _ h] at hq; exact i.atR q c' j hq
  · dsimp only at hq ⊢
    by_cases h : q = p
    · subst h; rw [upd_self] at hq; cases hq
    · rw [upd_ne _ _ h] at hq; exact i.atW q c' j hq
  · unfold LoAt
    rw [hs.1]
    dsimp only
    have l := i.link c
    unfold LiAt at l
    have e1 : (s.pos (N.rd c)).rdOn c = none := by rw [hrd, hp]; rfl
    rw [e1] at l
    have e2 : (upd s.pos p (.reading c (s.ch c).nextR) (N.wr c)).wrOn c = (s.pos (N.wr c)).wrOn c := by
      by_cases h : N.wr c = p
      · rw [h, upd_self, hp]; rfl
      · rw [upd_ne _ _ h]
    rw [e2]
    rw [upd_self, hrd, upd_self]
    rw [hrd] at l
    have := l.read conn
    simpa [At.rdOn] using this

theorem NI.write {N : Prog} (hN : N.proper) {s : St} (i : NI N s) {p c v : Nat} (hp : s.pos p = .idle)
    (ha : N.act p (s.hist p) = .write c v) (conn : Bool) : NI N (s.act N p conn (.write c v)) := by
  simp only [St.act, St.on]
  rw [upd_self, upd_upd]
  apply NL.settle
  have hwr := hN.write _ _ _ _ ha
  generalize hs' : ({ s with ch := upd s.ch c (((s.ch c).step .mkW).step (.awaitW (s.ch c).nextW conn false [])), vals := upd s.vals c (s.vals c ++ [v]), pos := upd s.pos p (.writing c (s.ch c).nextW) } : St) = s'
  have h1 : s'.ch = upd s.ch c (((s.ch c).step .mkW).step (.awaitW (s.ch c).nextW conn false [])) := by rw [← hs']
  have h2 : s'.vals = upd s.vals c (s.vals c ++ [v]) := by rw [← hs']
  have h3 : s'.pos = upd s.pos p (.writing c (s.ch c).nextW) := by rw [← hs']
  have h4 : s'.hist = s.hist := by rw [← hs']
  have hst : started N s' p = started N s p ++ [.write c v] := by
    unfold started
    rw [h3, h4, upd_self, begun_busy _ _ (by simp), hp, begun_idle, ha]
  have hot := fun c' (hc : c' ≠ c) => others (s' := s') (a := .write c v) i hp (.inr (.inl ⟨v, rfl⟩))
    (fun c' h => by rw [h1, upd_ne _ _ h]) (fun c' h => by rw [h2, upd_ne _ _ h]) (fun q h => by rw [h3, upd_ne _ _ h])
    (fun q _ => by rw [h4]) hst (fun _ => by rw [h4]) (fun c' h => by rw [h3, upd_self]; rfl)
    (fun c' h => by rw [h3, upd_self]; simp [At.wrOn, Ne.symm h]) hc
  have hcl := Chan.closed_write (i.link c).ci.j.ub conn
  refine ⟨⟨fun c' => ?_, fun c' => ?_, fun q c' j hq => ?_, fun q c' j hq => ?_, ?_⟩, fun c' hc => (hot c' hc).1, ?_⟩
  · by_cases hc : c' = c
    · subst hc; rw [hwr, hst, wrote_snoc, h2, upd_self, i.vals c', hwr]; simp
    · exact (hot c' hc).2.1
  · by_cases hc : c' = c
    · subst hc; rw [hwr, hst, h1, upd_self, hcl.1, i.shut c', hwr]; simp
    · exact (hot c' hc).2.2
  · rw [h3] at hq; rw [h4]
    by_cases h : q = p
    · subst h; rw [upd_self] at hq; cases hq
    · rw [upd_ne _ _ h] at hq; exact i.atR q c' j hq
  · rw [h3] at hq; rw [h4]
    by_cases h : q = p
    · subst h; rw [upd_self] at hq; cases hq; exact ⟨v, ha⟩
    · rw [upd_ne _ _ h] at hq; exact i.atW q c' j hq
  · rw [h4]; exact i.good
  · unfold LoAt
    have l := i.link c
    unfold LiAt at l
    have e1 : (s.pos (N.wr c)).wrOn c = none := by rw [hwr, hp]; rfl
    rw [e1] at l
    have e2 : (upd s.pos p (.writing c (s.ch c).nextW) (N.rd c)).rdOn c = (s.pos (N.rd c)).rdOn c := by
      by_cases h : N.rd c = p
      · rw [h, upd_self, hp]; rfl
      · rw [upd_ne _ _ h]
    rw [h1, h2, h3, h4, e2, hwr, hst, upd_self, upd_self, upd_self]
    rw [hwr] at l
    have hs : (sent c (started N s p ++ [.write c v])).length =
        if (s.ch c).closed then (sent c (started N s p)).length else (sent c (started N s p)).length + 1 := by
      have hsh := i.shut c
      rw [hwr] at hsh
      rw [sent_snoc]
      dsimp only
      rw [List.length_append]
      cases hcc : (s.ch c).closed with
      | true => rw [hcc] at hsh; have := hsh.1 rfl; simp [this]
      | false => rw [hcc] at hsh; have : Act.close c ∉ started N s p := fun h => by cases hsh.2 h
                 simp [this]
    rw [hs]
    have := l.write conn v
    simpa [At.wrOn] using this

theorem NI.close {N : Prog} (hN : N.proper) {s : St} (i : NI N s) {p c : Nat} (hp : s.pos p = .idle)
    (ha : N.act p (s.hist p) = .close c) (conn : Bool) : NI N (s.act N p conn (.close c)) := by
  simp only [St.act, St.on]
  apply NL.settle
  have hwr := hN.close _ _ _ ha
  generalize hs' : ({ s with ch := upd s.ch c ((s.ch c).step .close), hist := upd s.hist p (s.hist p ++ [.ok]) } : St) = s'
  have h1 : s'.ch = upd s.ch c ((s.ch c).step .close) := by rw [← hs']
  have h2 : s'.vals = s.vals := by rw [← hs']
  have h3 : s'.pos = s.pos := by rw [← hs']
  have h4 : s'.hist = upd s.hist p (s.hist p ++ [.ok]) := by rw [← hs']
  have hst : started N s' p = started N s p ++ [.close c] := by
    unfold started
    rw [h3, h4, upd_self, hp, begun_idle, begun_idle, done_snoc, ha]
  have hrec : ∀ c', received (N.act p) c' (s'.hist p) = received (N.act p) c' (s.hist p) := by
    intro c'
    rw [h4, upd_self, received_snoc, ha]; simp
  have hot := fun c' (hc : c' ≠ c) => others (s' := s') (a := .close c) i hp (.inr (.inr rfl))
    (fun c' h => by rw [h1, upd_ne _ _ h]) (fun c' h => by rw [h2]) (fun q h => by rw [h3])
    (fun q h => by rw [h4, upd_ne _ _ h]) hst hrec (fun c' h => by rw [h3, hp]; rfl)
    (fun c' h => by rw [h3, hp]; rfl) hc
  have l := i.link c
  unfold LiAt at l
  have e1 : (s.pos (N.wr c)).wrOn c = none := by rw [hwr, hp]; rfl
  rw [e1] at l
  obtain ⟨lc, hcl⟩ := l.close
  refine ⟨⟨fun c' => ?_, fun c' => ?_, fun q c' j hq => ?_, fun q c' j hq => ?_, fun q => ?_⟩, fun c' hc => (hot c' hc).1, ?_⟩
  · by_cases hc : c' = c
    · subst hc; rw [hwr, hst, wrote_snoc, h2, i.vals c', hwr]; simp
    · exact (hot c' hc).2.1
  · by_cases hc : c' = c
    · subst hc; rw [hwr, hst, h1, upd_self, hcl]; simp
    · exact (hot c' hc).2.2
  · rw [h3] at hq; rw [h4]
    by_cases h : q = p
    · subst h; rw [hp] at hq; cases hq
    · rw [upd_ne _ _ h]; exact i.atR q c' j hq
  · rw [h3] at hq; rw [h4]
    by_cases h : q = p
    · subst h; rw [hp] at hq; cases hq
    · rw [upd_ne _ _ h]; exact i.atW q c' j hq
  · rw [h4]
    by_cases h : q = p
    · subst h; rw [upd_self]; exact (i.good q).snoc (by unfold okAt; rw [ha])
    · rw [upd_ne _ _ h]; exact i.good q
  · unfold LoAt
    have e2 : received (N.act (N.rd c)) c (s'.hist (N.rd c)) = received (N.act (N.rd c)) c (s.hist (N.rd c)) := by
      by_cases h : N.rd c = p
      · rw [h]; exact hrec c
      · rw [h4, upd_ne _ _ h]
    rw [e2, h1, h2, h3, e1, upd_self, hwr, hst, sent_snoc]
    dsimp only
    rw [List.append_nil]
    rw [hwr] at lc
    exact lc

theorem NI.chan {N : Prog} {s : St} (i : NI N s) (c k : Nat) : NI N (s.on N c (.run k)) := by
  simp only [St.on]
  apply NL.settle
  refine ⟨⟨i.vals, fun c' => ?_, i.atR, i.atW, i.good⟩, fun c' hc => ?_, ?_⟩
  · show _ ↔ Act.close c' ∈ started N s (N.wr c')
    rw [← i.shut c']
    dsimp only
    by_cases hc : c' = c
    · subst hc; rw [upd_self, (CK.step_run _ _).closed]
    · rw [upd_ne _ _ hc]
  · have := i.link c'
    unfold LiAt at *
    dsimp only
    rw [upd_ne _ _ hc]; exact this
  · have := (i.link c).run k
    unfold LoAt
    dsimp only
    rw [upd_self]; exact this

theorem NI.step {N : Prog} (hN : N.proper) {s : St} (i : NI N s) (e : Ev) : NI N (s.step N e) := by
  cases e with
  | run c k => exact i.chan c k
  | go p conn =>
    simp only [St.step]
    split
    · rename_i hp
      cases ha : N.act p (s.hist p) with
      | read c => exact i.read hN hp ha conn
      | write c v => exact i.write hN hp ha conn
      | close c => exact i.close hN hp ha conn
      | stop => exact i
    · exact i

theorem NI.run {N : Prog} (hN : N.proper) (cap : Nat → Nat) (es : List Ev) : NI N (Net.run N cap es) := by
  have : ∀ (es : List Ev) (s : St), NI N s → NI N (es.foldl (St.step N) s) := by
    intro es
    induction es with
    | nil => intro s h; exact h
    | cons e es ih => intro s h; exact ih _ (h.step hN e)
  exact this es _ (NI.init N cap)

end Cobalt.Net
