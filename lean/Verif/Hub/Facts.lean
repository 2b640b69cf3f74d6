import Verif.Hub.Inv
/-! Helper: what the sessions have got, and where things end. -/
namespace Cobalt.Hub
open Net (Act Res At NI started begun done wrote sent received nreads)
open Chan (upd)

/-! ## What the sessions have got -/

theorem sent_wrote_eq (c : Nat) {as : List Act} (h : ∀ k, Act.close k ∉ as) : sent c as = wrote c as := by
  rcases Net.sent_shut c as with h1 | h1
  · exact (Net.sent_wrote c as).eq_of_length h1
  · exact absurd h1 (h c)

theorem Ok.noClose {A : Nat → List Act} (h : Ok A) (k : Nat) : Act.close k ∉ A 0 := by
  intro hm; obtain ⟨_, _, e⟩ := h.hub _ hm; cases e

theorem received_all (f : List Res → Act) (c : Nat) (h : List Res) (hf : ∀ k, k < h.length → f (h.take k) = .read c) :
    received f c h = h := by
  induction h using Net.snoc_ind with
  | h0 => rfl
  | h1 l a ih =>
    rw [Net.received_snoc, ih, if_pos]
    · have := hf l.length (by simp)
      simpa using this
    · intro k hk
      have := hf k (by simp; omega)
      rwa [List.take_append_of_le_length (by omega)] at this

theorem HI.received {cap : Nat} {s : St} (h : HI cap s) (i : Nat) :
    received ((route s.did).act (i + 1)) i (s.net.hist (i + 1)) = s.net.hist (i + 1) := by
  apply received_all
  intro k hk
  have hc := h.cnt (i + 1)
  simp only [route]
  rw [List.length_take, Nat.min_eq_left (by omega), List.getD_eq_getElem?_getD, List.getElem?_eq_getElem (by omega)]
  exact h.ok.ses i _ (List.getElem_mem _)

theorem HI.offered_wrote {cap : Nat} {s : St} (h : HI cap s) (i : Nat) :
    sent i (done ((route s.did).act 0) (s.net.hist 0) ++ [(route s.did).act 0 (s.net.hist 0)]) = wrote i (s.did 0) := by
  have hb := h.begun_did 0
  unfold Net.started begun at hb
  by_cases hp : s.net.pos 0 = .idle
  · rw [if_pos hp] at hb
    have hc := h.cnt 0
    rw [hp] at hc
    simp [busy] at hc
    have ha : (route s.did).act 0 (s.net.hist 0) = .stop := by
      simp only [route]
      rw [← hc, List.getD_eq_getElem?_getD, List.getElem?_eq_none (Nat.le_refl _)]
      rfl
    rw [hb, ha, sent_wrote_eq, Net.wrote_snoc]
    · simp
    · intro k hm
      rcases List.mem_append.1 hm with hm | hm
      · exact h.ok.noClose k hm
      · simp at hm
  · rw [if_neg hp] at hb
    rw [hb, sent_wrote_eq _ h.ok.noClose]

/-- A session has got a part of what was written to it. -/
theorem HI.stream {cap : Nat} {s : St} (h : HI cap s) (i : Nat) :
    ∃ k, s.got i = ((wrote i (s.did 0)).take k).map .val := by
  obtain ⟨es, hes⟩ := h.sim s.did fun _ => List.prefix_refl _
  obtain ⟨k, e, h1, h2⟩ := Net.C110_stream (route s.did) h.ok.proper (fun _ => cap) es i (i + 1) 0 rfl rfl
  rw [hes] at h1 h2
  rw [h.received, h.offered_wrote] at h1
  have he : e = 0 := by
    apply Classical.byContradiction
    intro he
    have hm := (h2 he).1
    have hpre := Net.done_started (route s.did) s.net 0
    rw [h.begun_did] at hpre
    exact h.ok.noClose i (hpre.subset hm)
  subst he
  exact ⟨k, by simpa [St.got] using h1⟩

theorem HI.posS {cap : Nat} {s : St} (h : HI cap s) (i : Nat) :
    s.net.pos (i + 1) = .idle ∨ ∃ k, s.net.pos (i + 1) = .reading i k := by
  have ni := h.ni
  cases hp : s.net.pos (i + 1) with
  | idle => exact .inl rfl
  | reading c k =>
    have hm := getD_mem (ni.atR _ _ _ hp) (by simp)
    have := h.ok.ses i _ hm
    cases this
    exact .inr ⟨k, rfl⟩
  | writing c k =>
    obtain ⟨v, hv⟩ := ni.atW _ _ _ hp
    have := h.ok.ses i _ (getD_mem hv (by simp))
    cases this

theorem HI.posH {cap : Nat} {s : St} (h : HI cap s) :
    s.net.pos 0 = .idle ∨ ∃ c k, s.net.pos 0 = .writing c k := by
  have ni := h.ni
  cases hp : s.net.pos 0 with
  | idle => exact .inl rfl
  | writing c k => exact .inr ⟨c, k, rfl⟩
  | reading c k =>
    obtain ⟨_, _, e⟩ := h.ok.hub _ (getD_mem (ni.atR _ _ _ hp) (by simp))
    cases e

theorem WI.wrote_small {s : St} (w : WI s) {c : Nat} {v : Nat} (h : Act.write c v ∈ s.did 0) : c < s.n := by
  apply Classical.byContradiction
  intro hn
  have h1 := w.new c (by omega)
  have : v ∈ wrote c (s.did 0) := by
    unfold wrote
    rw [List.mem_filterMap]
    exact ⟨_, h, by simp⟩
  rw [h1] at this
  cases this

theorem HI.writes {cap : Nat} {s : St} (h : HI cap s) {c k : Nat} (hp : s.net.pos 0 = .writing c k) :
    ∃ v, Act.write c v ∈ s.did 0 := by
  obtain ⟨v, hv⟩ := h.ni.atW _ _ _ hp
  exact ⟨v, getD_mem hv (by simp)⟩

/-- A session that waits while nothing is posted has all that was written to it. -/
theorem HI.waits_all {cap : Nat} {s : St} (h : HI cap s) {i k : Nat} (hp : (s.net.ch i).posted = [])
    (hr : s.net.pos (i + 1) = .reading i k) : s.got i = (wrote i (s.did 0)).map .val := by
  obtain ⟨-, h2⟩ := h.ni.restR h.ok.proper hp hr
  have hwr : (route s.did).wr i = 0 := rfl
  rw [hwr, h.begun_did, sent_wrote_eq _ h.ok.noClose, ← Net.received_length, h.received] at h2
  obtain ⟨m, hm⟩ := h.stream i
  have hl : (s.got i).length = (wrote i (s.did 0)).length := h2.symm
  rw [hm] at hl ⊢
  rw [List.length_map, List.length_take] at hl
  rw [List.take_of_length_le (by omega)]

/-- The hub does not wait for a session that waits for it. -/
theorem HI.not_both {cap : Nat} {s : St} (h : HI cap s) {c k j : Nat} (hp : (s.net.ch c).posted = [])
    (hr : s.net.pos (c + 1) = .reading c k) (hw : s.net.pos 0 = .writing c j) : False := by
  have li := h.ni.link c
  unfold Net.LiAt at li
  have e1 : (s.net.pos ((route s.did).rd c)).rdOn c = some k := by
    show (s.net.pos (c + 1)).rdOn c = some k
    rw [hr]; simp [At.rdOn]
  have e2 : (s.net.pos ((route s.did).wr c)).wrOn c = some j := by
    show (s.net.pos 0).wrOn c = some j
    rw [hw]; simp [At.wrOn]
  rw [e1, e2] at li
  have h3 := li.inRq hp
  have h4 := li.inWq hp
  rcases li.ci.h.excl with h5 | h5
  · rw [h5] at h3; cases h3
  · rw [h5] at h4; cases h4

/-- Where everything rests, the sessions are served or the hub is stuck. -/
theorem rest_cases {cap : Nat} {s : St} (h : HI cap s) (w : WI s) (hr : s.rest) : s.served ∨ ∃ i, s.stuck i := by
  rcases h.posH with h0 | ⟨c, j, h0⟩
  · left
    refine ⟨⟨h0, hr.2.1 h0⟩, fun i hi hl => ?_⟩
    rcases h.posS i with h1 | ⟨k, h1⟩
    · exact absurd h1 (hr.2.2 i hi hl)
    · rw [h.waits_all (hr.1 i) h1, w.wr i hi hl, hr.2.1 h0]
      simp [St.due]
  · right
    refine ⟨c, ⟨j, h0⟩, ?_, hr.1 c⟩
    cases hl : s.left c with
    | true => rfl
    | false =>
      obtain ⟨v, hv⟩ := h.writes h0
      rcases h.posS c with h1 | ⟨k, h1⟩
      · exact absurd h1 (hr.2.2 c (w.wrote_small hv) hl)
      · exact (h.not_both (hr.1 c) h1 h0).elim

/-! ## Nothing happens to others -/

theorem settleR_frame (N : Net.Prog) (s : Net.St) (c : Nat) :
    (∀ x, x ≠ c → (s.settleR N c).ch x = s.ch x) ∧
      ∀ p, p ≠ N.rd c → (s.settleR N c).pos p = s.pos p ∧ (s.settleR N c).hist p = s.hist p := by
  unfold Net.St.settleR
  split
  · split
    · exact ⟨fun x hx => Net.upd_ne _ _ hx, fun p hp => ⟨Net.upd_ne _ _ hp, Net.upd_ne _ _ hp⟩⟩
    · exact ⟨fun _ _ => rfl, fun _ _ => ⟨rfl, rfl⟩⟩
  · exact ⟨fun _ _ => rfl, fun _ _ => ⟨rfl, rfl⟩⟩

theorem settleW_frame (N : Net.Prog) (s : Net.St) (c : Nat) :
    (∀ x, x ≠ c → (s.settleW N c).ch x = s.ch x) ∧
      ∀ p, (p ≠ N.wr c ∨ ∀ j, s.pos p ≠ .writing c j) → (s.settleW N c).pos p = s.pos p ∧ (s.settleW N c).hist p = s.hist p := by
  unfold Net.St.settleW
  split
  · rename_i j hj
    have hj := Net.wrOn_some hj
    split
    · refine ⟨fun x hx => Net.upd_ne _ _ hx, fun p hp => ?_⟩
      have hne : p ≠ N.wr c := by
        rcases hp with hp | hp
        · exact hp
        · intro e; subst e; exact hp j hj
      exact ⟨Net.upd_ne _ _ hne, Net.upd_ne _ _ hne⟩
    · exact ⟨fun _ _ => rfl, fun _ _ => ⟨rfl, rfl⟩⟩
  · exact ⟨fun _ _ => rfl, fun _ _ => ⟨rfl, rfl⟩⟩

/-- What happens to channel `c` touches nobody but its reader and the hub, and the hub only if it waits for this channel. -/
theorem on_frame (A : Nat → List Act) (s : Net.St) (c : Nat) (e : Chan.Ev) :
    (∀ x, x ≠ c → (s.on (route A) c e).ch x = s.ch x) ∧
      (∀ p, p ≠ 0 → p ≠ c + 1 → (s.on (route A) c e).pos p = s.pos p ∧ (s.on (route A) c e).hist p = s.hist p) ∧
      ((∀ j, s.pos 0 ≠ .writing c j) → (s.on (route A) c e).pos 0 = s.pos 0 ∧ (s.on (route A) c e).hist 0 = s.hist 0) := by
  unfold Net.St.on
  have h1 := settleR_frame (route A) { s with ch := upd s.ch c ((s.ch c).step e) } c
  have h2 := settleW_frame (route A) (Net.St.settleR (route A) { s with ch := upd s.ch c ((s.ch c).step e) } c) c
  generalize Net.St.settleR (route A) { s with ch := upd s.ch c ((s.ch c).step e) } c = u at *
  have hrd : (route A).rd c = c + 1 := rfl
  have hwr : (route A).wr c = 0 := rfl
  rw [hrd] at h1
  rw [hwr] at h2
  refine ⟨fun x hx => ?_, fun p h0 hp => ?_, fun hw => ?_⟩
  · rw [h2.1 x hx, h1.1 x hx]; exact Net.upd_ne _ _ hx
  · obtain ⟨a, b⟩ := h2.2 p (.inl h0)
    obtain ⟨a', b'⟩ := h1.2 p hp
    exact ⟨a.trans a', b.trans b'⟩
  · obtain ⟨a', b'⟩ := h1.2 0 (by omega)
    obtain ⟨a, b⟩ := h2.2 0 (.inr (by rw [a']; exact hw))
    exact ⟨a.trans a', b.trans b'⟩

theorem read_frame (A : Nat → List Act) (s : Net.St) (c : Nat) (conn : Bool) :
    (∀ x, x ≠ c → (s.act (route A) (c + 1) conn (.read c)).ch x = s.ch x) ∧
      (∀ p, p ≠ 0 → p ≠ c + 1 → (s.act (route A) (c + 1) conn (.read c)).pos p = s.pos p ∧
        (s.act (route A) (c + 1) conn (.read c)).hist p = s.hist p) ∧
      ((∀ j, s.pos 0 ≠ .writing c j) → (s.act (route A) (c + 1) conn (.read c)).pos 0 = s.pos 0 ∧
        (s.act (route A) (c + 1) conn (.read c)).hist 0 = s.hist 0) := by
  have h := on_frame A { s with ch := upd s.ch c ((s.ch c).step .mkR), pos := upd s.pos (c + 1) (.reading c (s.ch c).nextR) } c
    (.awaitR (s.ch c).nextR conn false [])
  have h0 : upd s.pos (c + 1) (At.reading c (s.ch c).nextR) 0 = s.pos 0 := Net.upd_ne _ _ (by omega)
  refine ⟨fun x hx => ?_, fun p hp hc => ?_, fun hw => ?_⟩
  · have := h.1 x hx
    dsimp only at this
    rw [show (upd s.ch c ((s.ch c).step .mkR)) x = s.ch x from Net.upd_ne _ _ hx] at this
    exact this
  · have := h.2.1 p hp hc
    dsimp only at this
    rw [show (upd s.pos (c + 1) (At.reading c (s.ch c).nextR)) p = s.pos p from Net.upd_ne _ _ hc] at this
    exact this
  · have := h.2.2 (by dsimp only; rw [h0]; exact hw)
    dsimp only at this
    rw [h0] at this
    exact this

theorem write_frame (A : Nat → List Act) (s : Net.St) (c v : Nat) (conn : Bool) :
    (∀ x, x ≠ c → (s.act (route A) 0 conn (.write c v)).ch x = s.ch x) ∧
      (∀ p, p ≠ 0 → p ≠ c + 1 → (s.act (route A) 0 conn (.write c v)).pos p = s.pos p ∧
        (s.act (route A) 0 conn (.write c v)).hist p = s.hist p) ∧
      ((s.act (route A) 0 conn (.write c v)).pos 0 = .idle ∨ ∃ j, (s.act (route A) 0 conn (.write c v)).pos 0 = .writing c j) := by
  have h := on_frame A { s with ch := upd s.ch c ((s.ch c).step .mkW), vals := upd s.vals c (s.vals c ++ [v])
                                pos := upd s.pos 0 (.writing c (s.ch c).nextW) } c (.awaitW (s.ch c).nextW conn false [])
  have hm := Net.on_moves (route A) { s with ch := upd s.ch c ((s.ch c).step .mkW), vals := upd s.vals c (s.vals c ++ [v])
                                             pos := upd s.pos 0 (.writing c (s.ch c).nextW) } c 0 (.awaitW (s.ch c).nextW conn false [])
  refine ⟨fun x hx => ?_, fun p hp hc => ?_, ?_⟩
  · have := h.1 x hx
    dsimp only at this
    rw [show (upd s.ch c ((s.ch c).step .mkW)) x = s.ch x from Net.upd_ne _ _ hx] at this
    exact this
  · have := h.2.1 p hp hc
    dsimp only at this
    rw [show (upd s.pos 0 (At.writing c (s.ch c).nextW)) p = s.pos p from Net.upd_ne _ _ hp] at this
    exact this
  · rcases hm with ⟨-, h2⟩ | ⟨-, h2, -⟩
    · right; exact ⟨(s.ch c).nextW, by dsimp only at h2; rw [Net.upd_self] at h2; exact h2⟩
    · left; exact h2

theorem upd_id {α : Type} (f : Nat → α) (i : Nat) : upd f i (f i) = f := by
  funext j
  by_cases h : j = i
  · subst h; exact Net.upd_self _ _ _
  · exact Net.upd_ne _ _ h

/-- Nothing is there to be run. -/
theorem run_none {cap : Nat} {s : St} (h : HI cap s) {c k : Nat} (hk : (s.net.ch c).posted.length ≤ k) :
    s.net.on (route fun _ => []) c (.run k) = s.net := by
  have hs : (s.net.ch c).step (.run k) = s.net.ch c := by
    have hn : (s.net.ch c).posted[k]? = none := List.getElem?_eq_none hk
    simp only [Chan.St.step, Chan.St.run, hn]
    split <;> rfl
  have li := h.ni.link c
  unfold Net.LiAt at li
  have hr : s.net.settleR (route fun _ => []) c = s.net := by
    unfold Net.St.settleR
    cases e : (s.net.pos ((route fun _ => []).rd c)).rdOn c with
    | none => rfl
    | some i =>
      have := Chan.resultOf_none.2 (li.st.r i e)
      dsimp only
      rw [this]
  have hw : s.net.settleW (route fun _ => []) c = s.net := by
    unfold Net.St.settleW
    cases e : (s.net.pos ((route fun _ => []).wr c)).wrOn c with
    | none => rfl
    | some i =>
      have := Pipe.resultOfW_none.2 (li.st.w i e)
      dsimp only
      rw [this]
  unfold Net.St.on
  rw [hs, upd_id]
  show Net.St.settleW (route fun _ => []) (s.net.settleR (route fun _ => []) c) c = s.net
  rw [hr, hw]

end Cobalt.Hub
