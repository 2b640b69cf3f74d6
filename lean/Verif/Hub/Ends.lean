import Verif.Hub.Facts
/-! Helper: the hub that is stuck, and the end of everything else. -/
namespace Cobalt.Hub
open Net (Act Res At NI wrote Moves)
open Chan (upd)

/-! ## Being stuck -/

theorem not_free {s : St} {i : Nat} (h : s.stuck i) : ¬ s.free := by
  intro hf
  obtain ⟨⟨j, hj⟩, -⟩ := h
  rw [hf.1] at hj; cases hj

/-- The hub is stuck for ever. -/
theorem stuck_step {cap : Nat} {s : St} (h : HI cap s) {i : Nat} (hs : s.stuck i) (e : Ev) :
    (s.step e).stuck i ∧ (s.step e).todo = s.todo ∧ (s.step e).log = s.log ∧ (s.step e).did 0 = s.did 0 ∧
      (s.step e).n = s.n ∧ (s.step e).since = s.since := by
  obtain ⟨⟨j, hj⟩, hl, hp⟩ := hs
  have hnf : ¬ s.free := not_free ⟨⟨j, hj⟩, hl, hp⟩
  have base : s.stuck i ∧ s.todo = s.todo ∧ s.log = s.log ∧ s.did 0 = s.did 0 ∧ s.n = s.n ∧ s.since = s.since :=
    ⟨⟨⟨j, hj⟩, hl, hp⟩, rfl, rfl, rfl, rfl, rfl⟩
  cases e with
  | update v o =>
    simp only [St.step]
    rw [if_neg (fun h => hnf h.1)]
    exact base
  | sub =>
    simp only [St.step]
    rw [if_neg hnf]
    exact base
  | hub conn =>
    simp only [St.step]
    rw [if_neg (by rw [hj]; simp)]
    exact base
  | leave k =>
    simp only [St.step]
    split
    · refine ⟨⟨⟨j, hj⟩, ?_, hp⟩, rfl, rfl, rfl, rfl, rfl⟩
      dsimp only
      by_cases hk : i = k
      · subst hk; exact Net.upd_self _ _ _
      · rw [Net.upd_ne _ _ hk]; exact hl
    · exact base
  | read k conn =>
    simp only [St.step]
    split
    · rename_i hk
      have hki : i ≠ k := by intro e; subst e; rw [hl] at hk; cases hk.2.1
      have hf := read_frame (fun _ => []) s.net k conn
      have hd : (s.go (k + 1) conn (.read k)).did 0 = s.did 0 := by
        simp only [St.go]
        exact Net.upd_ne _ _ (by omega)
      refine ⟨⟨⟨j, ?_⟩, hl, ?_⟩, rfl, rfl, hd, rfl, rfl⟩
      · simp only [St.go]
        rw [(hf.2.2 (by rw [hj]; intro j' e; cases e; exact hki rfl)).1]; exact hj
      · simp only [St.go]
        rw [hf.1 i hki]; exact hp
    · exact base
  | run c k =>
    show St.stuck { s with net := s.net.on (route fun _ => []) c (.run k) } i ∧ s.todo = s.todo ∧ s.log = s.log ∧
      s.did 0 = s.did 0 ∧ s.n = s.n ∧ s.since = s.since
    refine ⟨⟨⟨j, ?_⟩, hl, ?_⟩, rfl, rfl, rfl, rfl, rfl⟩
    · dsimp only
      by_cases hc : i = c
      · subst hc; rw [run_none h (by rw [hp]; simp)]; exact hj
      · rw [((on_frame (fun _ => []) s.net c (.run k)).2.2 (by rw [hj]; intro j' e; cases e; exact hc rfl)).1]; exact hj
    · dsimp only
      by_cases hc : i = c
      · subst hc; rw [run_none h (by rw [hp]; simp)]; exact hp
      · rw [(on_frame (fun _ => []) s.net c (.run k)).1 i hc]; exact hp

theorem stuck_steps {cap : Nat} {s : St} (h : HI cap s) {i : Nat} (hs : s.stuck i) (es : List Ev) :
    (s.steps es).stuck i ∧ (s.steps es).todo = s.todo ∧ (s.steps es).log = s.log ∧ (s.steps es).did 0 = s.did 0 ∧
      (s.steps es).n = s.n ∧ (s.steps es).since = s.since := by
  induction es generalizing s with
  | nil => exact ⟨hs, rfl, rfl, rfl, rfl, rfl⟩
  | cons e es ih =>
    obtain ⟨a, b, c, d, f, g⟩ := stuck_step h hs e
    obtain ⟨a', b', c', d', f', g'⟩ := ih (h.step e) a
    exact ⟨a', b'.trans b, c'.trans c, d'.trans d, f'.trans f, g'.trans g⟩

/-- The hub gets stuck only if a session leaves for which it waits. -/
theorem unstuck_step {cap : Nat} {s : St} (h : HI cap s) (w : WI s) (hs : ∀ i, ¬ s.stuck i) {e : Ev}
    (he : ∀ i, e = .leave i → ∀ j, s.net.pos 0 ≠ .writing i j) (i : Nat) : ¬ (s.step e).stuck i := by
  intro hn
  apply hs i
  obtain ⟨⟨j, hj⟩, hl, hp⟩ := hn
  cases e with
  | update v o =>
    simp only [St.step] at hj hl hp
    split at hj
    · rename_i hf
      rw [hf.1.1] at hj; cases hj
    · rename_i hf
      rw [if_neg hf] at hl hp
      exact ⟨⟨j, hj⟩, hl, hp⟩
  | sub =>
    simp only [St.step] at hj hl hp
    split at hj
    · rename_i hf
      rw [hf.1] at hj; cases hj
    · rename_i hf
      rw [if_neg hf] at hl hp
      exact ⟨⟨j, hj⟩, hl, hp⟩
  | leave k =>
    simp only [St.step] at hj hl hp
    split at hj
    · rename_i hf
      rw [if_pos hf] at hl hp
      dsimp only at hj hl hp
      by_cases hk : i = k
      · subst hk; exact absurd hj (he i rfl j)
      · rw [Net.upd_ne _ _ hk] at hl
        exact ⟨⟨j, hj⟩, hl, hp⟩
    · rename_i hf
      rw [if_neg hf] at hl hp
      exact ⟨⟨j, hj⟩, hl, hp⟩
  | hub conn =>
    simp only [St.step] at hj hl hp
    split at hj
    · rename_i hf
      rw [if_pos hf] at hl hp
      cases ht : s.todo with
      | nil => rw [ht] at hj; simp only [St.next] at hj; rw [hf] at hj; cases hj
      | cons c cs =>
        rw [ht] at hj hl hp
        simp only [St.next] at hj hl hp
        split at hj
        · dsimp only at hj; rw [hf] at hj; cases hj
        · rename_i hlc
          rw [if_neg hlc] at hl
          simp only [St.go] at hj hl
          have hw := (write_frame (fun _ => []) s.net c (s.log.getLast?.getD 0) conn).2.2
          rw [hj] at hw
          rcases hw with hw | ⟨j', hw⟩
          · cases hw
          · cases hw; exact absurd hl hlc
    · rename_i hf
      rw [if_neg hf] at hl hp
      exact ⟨⟨j, hj⟩, hl, hp⟩
  | read k conn =>
    simp only [St.step] at hj hl hp
    split at hj
    · rename_i hf
      rw [if_pos hf] at hl hp
      simp only [St.go] at hj hl hp
      have hki : i ≠ k := by intro e; subst e; rw [hl] at hf; cases hf.2.1
      have hfr := read_frame (fun _ => []) s.net k conn
      have hpos : s.net.pos 0 = .writing i j := by
        have hm := Net.on_moves (route fun _ => []) { s.net with ch := upd s.net.ch k ((s.net.ch k).step .mkR), pos := upd s.net.pos (k + 1) (.reading k (s.net.ch k).nextR) } k 0
          (.awaitR (s.net.ch k).nextR conn false [])
        rcases hm with ⟨-, h2⟩ | ⟨-, h2, -⟩
        · dsimp only at h2
          rw [show upd s.net.pos (k + 1) (At.reading k (s.net.ch k).nextR) 0 = s.net.pos 0 from Net.upd_ne _ _ (by omega)] at h2
          rw [← h2]; exact hj
        · rw [show (s.net.act (route fun _ => []) (k + 1) conn (.read k)).pos 0 = .idle from h2] at hj; cases hj
      refine ⟨⟨j, hpos⟩, hl, ?_⟩
      rw [hfr.1 i hki] at hp; exact hp
    · rename_i hf
      rw [if_neg hf] at hl hp
      exact ⟨⟨j, hj⟩, hl, hp⟩
  | run c k =>
    simp only [St.step] at hj hl hp
    have hpos : s.net.pos 0 = .writing i j := by
      rcases Net.on_moves (route fun _ => []) s.net c 0 (.run k) with ⟨-, h2⟩ | ⟨-, h2, -⟩
      · rw [← h2]; exact hj
      · rw [h2] at hj; cases hj
    refine ⟨⟨j, hpos⟩, hl, ?_⟩
    by_cases hc : i = c
    · subst hc
      rcases Nat.lt_or_ge k (s.net.ch i).posted.length with hk | hk
      · obtain ⟨p, g1, g2, x, g3⟩ := Net.run_got h.ni hk
        have g2 : (s.net.on (route fun _ => []) i (.run k)).pos p = .idle := g2
        by_cases hp0 : p = 0
        · subst hp0; rw [g2] at hj; cases hj
        · by_cases hpi : p = i + 1
          · subst hpi; exact absurd (w.gone i hl) g1
          · have := ((on_frame (fun _ => []) s.net i (.run k)).2.1 p hp0 hpi).1
            rw [g2] at this
            exact absurd this.symm g1
      · rw [run_none h hk] at hp; exact hp
    · rw [(on_frame (fun _ => []) s.net c (.run k)).1 i hc] at hp; exact hp

/-! ## The measure -/

/-- What a session still has to do. -/
def St.lack (s : St) (i : Nat) : Nat := 2 * ((s.due i).length - (s.got i).length) + (1 - busy (s.net.pos (i + 1)))

def St.work (s : St) : Nat := 2 * s.todo.length + busy (s.net.pos 0) + ((List.range s.n).map s.lack).sum

theorem got_le {cap : Nat} {s : St} (h : HI cap s) (w : WI s) {i : Nat} (hi : i < s.n) :
    (s.got i).length ≤ (s.due i).length := by
  obtain ⟨k, hk⟩ := h.stream i
  have := (w.pre i hi).length_le
  rw [hk]
  simp only [List.length_map, List.length_take, St.due] at this ⊢
  omega

theorem busy_le (a : At) : busy a ≤ 1 := by unfold busy; split <;> omega

theorem busy_moves {a b : Net.St} {p : Nat} (m : Moves a b p) : busy (b.pos p) ≤ busy (a.pos p) := by
  rcases m with ⟨-, h⟩ | ⟨-, h, -⟩
  · rw [h]; exact Nat.le_refl _
  · rw [h]; simp [busy]

theorem lack_le {s t : St} {i : Nat} (m : Moves s.net t.net (i + 1)) (hd : t.due i = s.due i)
    (hle : (t.got i).length ≤ (t.due i).length) : t.lack i ≤ s.lack i := by
  unfold St.lack
  rw [hd] at hle ⊢
  rcases m with ⟨h1, h2⟩ | ⟨h1, h2, x, h3⟩
  · rw [show t.got i = s.got i from h1, h2]; exact Nat.le_refl _
  · have hg : (t.got i).length = (s.got i).length + 1 := by
      rw [show t.got i = s.got i ++ [x] from h3]; simp
    rw [h2]
    simp [busy, h1]
    omega

theorem lack_lt {s t : St} {i : Nat} (m : Net.Got s.net t.net (i + 1)) (hd : t.due i = s.due i)
    (hle : (t.got i).length ≤ (t.due i).length) : t.lack i < s.lack i := by
  obtain ⟨h1, h2, x, h3⟩ := m
  unfold St.lack
  rw [hd] at hle ⊢
  have hg : (t.got i).length = (s.got i).length + 1 := by
    rw [show t.got i = s.got i ++ [x] from h3]; simp
  rw [h2]
  simp [busy, h1]
  omega

theorem sum_le {f g : Nat → Nat} (b : Nat) (h : ∀ i, i < b → g i ≤ f i) :
    ((List.range b).map g).sum ≤ ((List.range b).map f).sum := by
  induction b with
  | zero => simp
  | succ b ih =>
    rw [List.range_succ]
    simp only [List.map_append, List.sum_append, List.map_cons, List.map_nil, List.sum_cons, List.sum_nil]
    have := ih fun i hi => h i (by omega)
    have := h b (by omega)
    omega

theorem moves_read (s : Net.St) (c : Nat) (conn : Bool) (p : Nat) (hp : p ≠ c + 1) :
    Moves s (s.act (route fun _ => []) (c + 1) conn (.read c)) p := by
  have hm := Net.on_moves (route fun _ => []) { s with ch := upd s.ch c ((s.ch c).step .mkR), pos := upd s.pos (c + 1) (.reading c (s.ch c).nextR) } c p
    (.awaitR (s.ch c).nextR conn false [])
  unfold Moves at hm ⊢
  dsimp only at hm
  rw [Net.upd_ne _ _ hp] at hm
  exact hm

theorem moves_write (s : Net.St) (c v : Nat) (conn : Bool) (p : Nat) (hp : p ≠ 0) :
    Moves s (s.act (route fun _ => []) 0 conn (.write c v)) p := by
  have hm := Net.on_moves (route fun _ => []) { s with ch := upd s.ch c ((s.ch c).step .mkW), vals := upd s.vals c (s.vals c ++ [v]), pos := upd s.pos 0 (.writing c (s.ch c).nextW) } c p
    (.awaitW (s.ch c).nextW conn false [])
  unfold Moves at hm ⊢
  dsimp only at hm
  rw [Net.upd_ne _ _ hp] at hm
  exact hm

/-- Whatever is done, less remains. -/
theorem work_lt {cap : Nat} {s : St} (h : HI cap s) (w : WI s) {e : Ev} (hu : s.useful e) : (s.step e).work < s.work := by
  have h' := h.step e
  have w' := w.step e
  cases e with
  | update v o => exact hu.elim
  | sub => exact hu.elim
  | leave i => exact hu.elim
  | hub conn =>
    obtain ⟨hf, ht⟩ := hu
    simp only [St.step] at h' w' ⊢
    rw [if_pos hf] at h' w' ⊢
    cases e : s.todo with
    | nil => exact absurd e ht
    | cons c cs =>
      rw [e] at h' w'
      simp only [St.next] at h' w' ⊢
      by_cases hl : s.left c = true
      · rw [if_pos hl]
        unfold St.work
        rw [e]
        dsimp only [List.length_cons]
        have : ((List.range s.n).map (St.lack { s with todo := cs })).sum = ((List.range s.n).map s.lack).sum := rfl
        rw [this]
        omega
      · rw [if_neg hl] at h' w' ⊢
        have hs := sum_le (f := s.lack) (g := (St.go { s with todo := cs } 0 conn (.write c (s.log.getLast?.getD 0))).lack) s.n
          (fun i hi => lack_le (moves_write s.net c _ conn (i + 1) (by omega)) rfl (got_le h' w' hi))
        have hb := busy_le ((St.go { s with todo := cs } 0 conn (.write c (s.log.getLast?.getD 0))).net.pos 0)
        unfold St.work
        rw [e]
        have e1 : (St.go { s with todo := cs } 0 conn (.write c (s.log.getLast?.getD 0))).todo = cs := rfl
        have e2 : (St.go { s with todo := cs } 0 conn (.write c (s.log.getLast?.getD 0))).n = s.n := rfl
        rw [e1, e2, List.length_cons]
        omega
  | read i conn =>
    simp only [St.step] at h' w' ⊢
    obtain ⟨hi, hl, hp⟩ := hu
    rw [if_pos ⟨hi, hl, hp⟩] at h' w' ⊢
    have hb := busy_moves (moves_read s.net i conn 0 (by omega))
    have hs := Net.sum_lt s.lack (s.go (i + 1) conn (.read i)).lack s.n
      (fun q hq => by
        by_cases hqi : q = i
        · subst hqi
          have := cnt_act (A := fun _ => []) (conn := conn) hp (.inl ⟨q, rfl⟩) (q + 1)
          have hg := got_le h' w' hq
          have hbl := busy_le ((s.net.act (route fun _ => []) (q + 1) conn (.read q)).pos (q + 1))
          unfold St.lack
          have d1 : (s.go (q + 1) conn (.read q)).due q = s.due q := rfl
          have d2 : (s.go (q + 1) conn (.read q)).net = s.net.act (route fun _ => []) (q + 1) conn (.read q) := rfl
          unfold St.got at hg ⊢
          rw [d1] at hg ⊢
          rw [d2] at hg ⊢
          rw [hp, if_pos rfl, show busy At.idle = 0 from rfl] at this
          rw [hp, show busy At.idle = 0 from rfl]
          omega
        · exact lack_le (moves_read s.net i conn (q + 1) (by omega)) rfl (got_le h' w' hq))
      ⟨i, hi, by
          have := cnt_act (A := fun _ => []) (conn := conn) hp (.inl ⟨i, rfl⟩) (i + 1)
          have hg := got_le h' w' hi
          have hbl := busy_le ((s.net.act (route fun _ => []) (i + 1) conn (.read i)).pos (i + 1))
          unfold St.lack
          have d1 : (s.go (i + 1) conn (.read i)).due i = s.due i := rfl
          have d2 : (s.go (i + 1) conn (.read i)).net = s.net.act (route fun _ => []) (i + 1) conn (.read i) := rfl
          unfold St.got at hg ⊢
          rw [d1] at hg ⊢
          rw [d2] at hg ⊢
          rw [hp, if_pos rfl, show busy At.idle = 0 from rfl] at this
          rw [hp, show busy At.idle = 0 from rfl]
          omega⟩
    unfold St.work
    have e1 : (s.go (i + 1) conn (.read i)).todo = s.todo := rfl
    have e2 : (s.go (i + 1) conn (.read i)).n = s.n := rfl
    have e3 : (s.go (i + 1) conn (.read i)).net = s.net.act (route fun _ => []) (i + 1) conn (.read i) := rfl
    rw [e1, e2, e3]
    omega
  | run c k =>
    have hk : k < (s.net.ch c).posted.length := hu
    simp only [St.step] at h' w' ⊢
    obtain ⟨p, hgot⟩ := Net.run_got h.ni hk
    have hgot : Net.Got s.net (s.net.on (route fun _ => []) c (.run k)) p := hgot
    have hb := busy_moves (Net.on_moves (route fun _ => []) s.net c 0 (.run k))
    have hle : ∀ i, i < s.n → St.lack { s with net := s.net.on (route fun _ => []) c (.run k) } i ≤ s.lack i := fun i hi =>
      lack_le (t := { s with net := s.net.on (route fun _ => []) c (.run k) })
        (Net.on_moves (route fun _ => []) s.net c (i + 1) (.run k)) rfl (got_le h' w' hi)
    unfold St.work
    dsimp only
    cases p with
    | zero =>
      have hs := sum_le s.n hle
      obtain ⟨g1, g2, -⟩ := hgot
      rw [g2]
      simp [busy, g1]
      omega
    | succ i =>
      have hi : i < s.n := by
        rcases Nat.lt_or_ge i s.n with h | h
        · exact h
        · exact absurd (w.away i h) hgot.1
      have hs := Net.sum_lt s.lack (St.lack { s with net := s.net.on (route fun _ => []) c (.run k) }) s.n hle
        ⟨i, hi, lack_lt (t := { s with net := s.net.on (route fun _ => []) c (.run k) }) hgot rfl (got_le h' w' hi)⟩
      omega

theorem not_rest {s : St} (h : ¬ s.rest) : ∃ e, s.useful e := by
  apply Classical.byContradiction
  intro hn
  apply h
  refine ⟨fun c => ?_, fun h0 => ?_, fun i hi hl hp => hn ⟨.read i false, hi, hl, hp⟩⟩
  · cases hp : (s.net.ch c).posted with
    | nil => rfl
    | cons a as => exact (hn ⟨.run c 0, by show 0 < (s.net.ch c).posted.length; rw [hp]; simp⟩).elim
  · apply Classical.byContradiction
    intro ht
    exact hn ⟨.hub false, h0, ht⟩

theorem useful_calm {s : St} {e : Ev} (h : s.useful e) : e.calm := by
  cases e <;> trivial

theorem reaches {cap : Nat} {s : St} (h : HI cap s) (w : WI s) : ∃ more, (∀ e ∈ more, e.calm) ∧ (s.steps more).rest := by
  generalize hm : s.work = m
  induction m using Nat.strongRecOn generalizing s with
  | _ m ih =>
    by_cases hr : s.rest
    · exact ⟨[], by simp, hr⟩
    · obtain ⟨e, he⟩ := not_rest hr
      obtain ⟨more, h1, h2⟩ := ih _ (by rw [← hm]; exact work_lt h w he) (h.step e) (w.step e) rfl
      refine ⟨e :: more, fun x hx => ?_, h2⟩
      rcases List.mem_cons.1 hx with rfl | hx
      · exact useful_calm he
      · exact h1 x hx

theorem usefuls_le {cap : Nat} {s : St} (h : HI cap s) (w : WI s) {es : List Ev} (hu : s.usefuls es) :
    es.length ≤ s.work := by
  induction es generalizing s with
  | nil => simp
  | cons e es ih =>
    have := ih (h.step e) (w.step e) hu.2
    have := work_lt h w hu.1
    simp only [List.length_cons]
    omega

theorem unstuck_calm {cap : Nat} {s : St} (h : HI cap s) (w : WI s) (hs : ∀ i, ¬ s.stuck i) {es : List Ev}
    (hc : ∀ e ∈ es, e.calm) (i : Nat) : ¬ (s.steps es).stuck i := by
  induction es generalizing s with
  | nil => exact hs i
  | cons e es ih =>
    refine ih (h.step e) (w.step e) (unstuck_step h w hs fun k hk => ?_) fun x hx => hc x (by simp [hx])
    have := hc e (by simp)
    rw [hk] at this
    exact this.elim

theorem unstuck_polite {cap : Nat} {s : St} (h : HI cap s) (w : WI s) (hs : ∀ i, ¬ s.stuck i) {es : List Ev}
    (hc : polite s es) (i : Nat) : ¬ (s.steps es).stuck i := by
  induction es generalizing s with
  | nil => exact hs i
  | cons e es ih => exact ih (h.step e) (w.step e) (unstuck_step h w hs hc.1) hc.2

end Cobalt.Hub
