import Verif.Lock.Inv
import Batteries.Data.List.Perm
/-!
# Lemmas for C99: the invariant
-/
namespace Cobalt.Lock

open Chan (Status Tok upd)
open VChan (WF Obs Res)

theorem wf_steps (es : List VChan.Ev) : ∀ {c : VChan.St}, WF c none → (c.steps es).ub = false → WF (c.steps es) none := by
  have key : ∀ (es : List VChan.Ev) (c : VChan.St), c.ub = true ∨ WF c none →
      (c.steps es).ub = true ∨ WF (c.steps es) none := by
    intro es
    induction es with
    | nil => exact fun c h => h
    | cons e es ih =>
      intro c h
      refine ih _ ?_
      rcases h with h | h
      · left; simp [VChan.St.step, h]
      · exact h.step e
  intro c h hu
  rcases key es c (Or.inr h) with h1 | h1
  · rw [hu] at h1; cases h1
  · exact h1

/-- The coroutines, and the list of those inside. -/
structure Inv (k : BitVec 64) (s : St) (l : List Nat) : Prop where
  ok : Ok s.ch
  limit : s.ch.limit = k
  wait : ∀ u i, s.ph u = .wait i → (s.ch.W i).status = .susp
  one : ∀ u v i, s.ph u = .wait i → s.ph v = .wait i → u = v
  has : ∀ i, (s.ch.W i).status = .susp → ∃ u, s.ph u = .wait i
  stays : ∀ u j, s.ph u ≠ .leave j
  few : ∀ u, s.ph u ≠ .out → u < s.users
  nd : l.Nodup
  mem : ∀ u, u ∈ l ↔ s.ph u = .inside
  cnt : s.ch.n.toNat = l.length

theorem Inv.init (k : BitVec 64) (users : Nat) : Inv k (St.init k users) [] := by
  refine ⟨Ok.init k, rfl, ?_, ?_, ?_, ?_, ?_, ?_, ?_, ?_⟩ <;> simp [St.init, VChan.St.init]

theorem Inv.len {k : BitVec 64} {s : St} {l : List Nat} (h : Inv k s l) : l.length ≤ s.users := by
  have : l.length ≤ (List.range s.users).length := (List.subperm_of_subset h.nd fun u hu => by
    rw [List.mem_range]
    exact h.few u (by rw [(h.mem u).1 hu]; simp)).length_le
  simpa using this

theorem writeReady_iff {c : VChan.St} (h : Ok c) : c.writeReady = true ↔ c.n.toNat < c.limit.toNat := by
  simp [VChan.St.writeReady, h.opened, BitVec.ult_eq_decide]

theorem readReady_iff {c : VChan.St} (h : Ok c) : c.readReady = true ↔ 0 < c.n.toNat := by
  simp [VChan.St.readReady, h.opened, BitVec.ult_eq_decide]

/-- The next write is new. -/
theorem Inv.fresh {k : BitVec 64} {s : St} {l : List Nat} (h : Inv k s l) : s.ch.W s.ch.nextW = {} :=
  h.ok.wf.wnew _ (Nat.le_refl _)

/-- Nobody is affected by what happens to another operation. -/
theorem goOn_eq {c' : VChan.St} {p : Phase} (hw : ∀ i, p = .wait i → (c'.W i).status = .susp)
    (hl : ∀ j, p ≠ .leave j) : goOn c' p = p := by
  cases p with
  | out => rfl
  | inside => rfl
  | wait i => simp [goOn, hw i rfl]
  | leave j => exact absurd rfl (hl j)

/-- The woken ones find room. -/
def Room (s : St) : Prop := s.ch.n.toNat + s.ch.posted.countP s.ch.puts ≤ s.ch.limit.toNat

/-- The facts about coroutines other than `u`, whose phase is `p` now. -/
theorem Inv.build {k : BitVec 64} {s s' : St} {l l' : List Nat} (h : Inv k s l) (ok : Ok s'.ch)
    (hlim : s'.ch.limit = s.ch.limit) (hus : s'.users = s.users) (u : Nat) (hu : u < s.users) (p : Phase)
    (ep : ∀ v, s'.ph v = if v = u then p else s.ph v)
    (hp1 : ∀ i, p = .wait i → (s'.ch.W i).status = .susp ∧ (s.ch.W i).status ≠ .susp)
    (hp2 : ∀ j, p ≠ .leave j)
    (hw : ∀ i, (s.ch.W i).status = .susp → s.ph u ≠ .wait i → (s'.ch.W i).status = .susp)
    (hw' : ∀ i, (s'.ch.W i).status = .susp → p = .wait i ∨ ((s.ch.W i).status = .susp ∧ s.ph u ≠ .wait i))
    (hl : l'.Nodup ∧ (∀ v, v ∈ l' ↔ if v = u then p = .inside else v ∈ l) ∧ s'.ch.n.toNat = l'.length) :
    Inv k s' l' := by
  refine ⟨ok, hlim.trans h.limit, ?_, ?_, ?_, ?_, ?_, hl.1, ?_, hl.2.2⟩
  · intro v i hv
    rw [ep] at hv
    split at hv
    · exact (hp1 i hv).1
    · rename_i hne
      exact hw i (h.wait v i hv) fun e => hne (h.one v u i hv e)
  · intro v w i hv hw
    rw [ep] at hv hw
    split at hv
    · split at hw
      · simp_all
      · exact absurd (h.wait w i hw) (hp1 i hv).2
    · split at hw
      · exact absurd (h.wait v i hv) (hp1 i hw).2
      · exact h.one v w i hv hw
  · intro i hi
    rcases hw' i hi with e | ⟨e, hne⟩
    · exact ⟨u, by rw [ep]; simp [e]⟩
    · obtain ⟨v, hv⟩ := h.has i e
      refine ⟨v, ?_⟩
      rw [ep]
      have : v ≠ u := by rintro rfl; exact hne hv
      simp [this, hv]
  · intro v j hv
    rw [ep] at hv
    split at hv
    · exact hp2 j hv
    · exact h.stays v j hv
  · intro v hv
    rw [hus]
    rw [ep] at hv
    split at hv
    · rename_i e; rw [e]; exact hu
    · exact h.few v hv
  · intro v
    rw [hl.2.1, ep]
    split
    · rfl
    · exact h.mem v

/-- Coming in at once. -/
theorem Inv.ready {k : BitVec 64} {s : St} {l : List Nat} (h : Inv k s l) (hN : s.users < 2 ^ 64) {u : Nat} (conn : Bool)
    (hu : u < s.users) (ho : s.ph u = .out) (hr : s.ch.writeReady = true) :
    Inv k (s.step (.acquire u conn)) (u :: l) ∧
    (Room s → Polite s (.acquire u conn) → Room (s.step (.acquire u conn))) := by
  have hul : u ∉ l := fun hm => by have := (h.mem u).1 hm; rw [ho] at this; cases this
  have hnew := h.fresh
  have hlen : l.length + 1 ≤ s.users := by
    have : (u :: l).length ≤ (List.range s.users).length :=
      (List.subperm_of_subset (List.nodup_cons.2 ⟨hul, h.nd⟩) fun v hv => by
      rw [List.mem_range]
      rcases List.mem_cons.1 hv with rfl | hv
      · exact hu
      · exact h.few v (by rw [(h.mem v).1 hv]; simp)).length_le
    simpa using this
  have hn : (s.ch.n + 1#64).toNat = s.ch.n.toNat + 1 := VChan.add_one_toNat (by rw [h.cnt]; omega)
  have ec : (s.step (.acquire u conn)).ch =
      { s.ch with W := upd s.ch.W s.ch.nextW { status := .done }, nextW := s.ch.nextW + 1, n := s.ch.n + 1#64,
                  log := s.ch.log ++ [Obs.doneW s.ch.nextW .ok] } := by
    rw [← steps_ready h.ok conn hr]
    simp [St.step, St.events, hu, ho]
  have ep : ∀ v, (s.step (.acquire u conn)).ph v = if v = u then .inside else s.ph v := by
    intro v
    show goOn (s.step (.acquire u conn)).ch (s.phase (.acquire u conn) v) = _
    rw [ec]
    simp only [St.phase, hu, ho, and_self, if_true]
    by_cases hv : v = u
    · simp [hv, goOn, VChan.upd_apply]
    · simp only [hv, if_false]
      refine goOn_eq (fun i hi => ?_) (h.stays v)
      have := h.wait v i hi
      have hne : i ≠ s.ch.nextW := by rintro rfl; rw [hnew] at this; cases this
      simp [VChan.upd_apply, hne, this]
  have hwf : WF (s.step (.acquire u conn)).ch none := wf_steps _ h.ok.wf (by
    show (s.step (.acquire u conn)).ch.ub = false
    rw [ec]; exact h.ok.ub)
  have hus : (s.step (.acquire u conn)).users = s.users := rfl
  generalize s.step (.acquire u conn) = s' at *
  obtain ⟨c', us', ph'⟩ := s'
  dsimp only at *
  subst ec
  have ok := h.ok
  refine ⟨?_, ?_⟩
  · refine h.build ?_ rfl hus u hu .inside ep (by simp) (by simp) ?_ ?_ ?_
    · constructor <;> (cases ok; simp only [VChan.upd_apply] at *; grind)
    · grind [VChan.upd_apply]
    · grind [VChan.upd_apply]
    · refine ⟨List.nodup_cons.2 ⟨hul, h.nd⟩, fun v => ?_, by rw [hn, h.cnt]; rfl⟩
      rw [List.mem_cons]
      split <;> simp_all
  · intro _ hp
    have hr' := (writeReady_iff ok).1 hr
    have hp : s.ch.limit.toNat ≤ s.ch.n.toNat ∨ s.ch.n.toNat + s.ch.posted.length < s.ch.limit.toNat := hp
    show (s.ch.n + 1#64).toNat + s.ch.posted.countP _ ≤ s.ch.limit.toNat
    rw [hn]
    refine Nat.le_trans (Nat.add_le_add_left List.countP_le_length _) ?_
    omega

/-- Having to wait. -/
theorem Inv.full {k : BitVec 64} {s : St} {l : List Nat} (h : Inv k s l) {u : Nat} (conn : Bool)
    (hu : u < s.users) (ho : s.ph u = .out) (hr : s.ch.writeReady = false) :
    Inv k (s.step (.acquire u conn)) l ∧ (Room s → Room (s.step (.acquire u conn))) := by
  have hnew := h.fresh
  have ec : (s.step (.acquire u conn)).ch =
      { s.ch with W := upd s.ch.W s.ch.nextW { status := .susp, waiting := true, slot := conn }, nextW := s.ch.nextW + 1,
                  wq := s.ch.wq ++ [s.ch.nextW] } := by
    rw [← steps_full h.ok conn hr]
    simp [St.step, St.events, hu, ho]
  have ep : ∀ v, (s.step (.acquire u conn)).ph v = if v = u then .wait s.ch.nextW else s.ph v := by
    intro v
    show goOn (s.step (.acquire u conn)).ch (s.phase (.acquire u conn) v) = _
    rw [ec]
    simp only [St.phase, hu, ho, and_self, if_true]
    by_cases hv : v = u
    · simp [hv, goOn, VChan.upd_apply]
    · simp only [hv, if_false]
      refine goOn_eq (fun i hi => ?_) (h.stays v)
      have := h.wait v i hi
      have hne : i ≠ s.ch.nextW := by rintro rfl; rw [hnew] at this; cases this
      simp [VChan.upd_apply, hne, this]
  have hwf : WF (s.step (.acquire u conn)).ch none := wf_steps _ h.ok.wf (by
    show (s.step (.acquire u conn)).ch.ub = false
    rw [ec]; exact h.ok.ub)
  have hus : (s.step (.acquire u conn)).users = s.users := rfl
  generalize s.step (.acquire u conn) = s' at *
  obtain ⟨c', us', ph'⟩ := s'
  dsimp only at *
  subst ec
  have ok := h.ok
  refine ⟨?_, ?_⟩
  · refine h.build ?_ rfl hus u hu (.wait s.ch.nextW) ep ?_ (by simp) ?_ ?_ ?_
    · constructor <;> (cases ok; simp only [VChan.upd_apply] at *; grind)
    · grind [VChan.upd_apply]
    · grind [VChan.upd_apply]
    · grind [VChan.upd_apply]
    · refine ⟨h.nd, fun v => ?_, h.cnt⟩
      have := h.mem v
      split <;> simp_all
  · intro hm
    have hpn : ∀ x ∈ s.ch.posted, x ≠ .w s.ch.nextW := by
      rintro x hx rfl
      have := (ok.wf.wpost _ hx).1
      rw [hnew] at this; cases this
    have e : s.ch.posted.countP (VChan.St.puts { s.ch with
        W := upd s.ch.W s.ch.nextW { status := .susp, waiting := true, slot := conn }, nextW := s.ch.nextW + 1,
        wq := s.ch.wq ++ [s.ch.nextW] }) = s.ch.posted.countP s.ch.puts := Chan.countP_eq fun x hx => by
      cases x with
      | r i => rfl
      | w i =>
        have : i ≠ s.ch.nextW := fun e => hpn _ hx (by rw [e])
        simp [VChan.St.puts, VChan.upd_apply, this]
    show s.ch.n.toNat + s.ch.posted.countP _ ≤ s.ch.limit.toNat
    rw [e]
    exact hm

/-- After a read that did not have to wait. -/
abbrev _root_.Cobalt.VChan.St.left (c : VChan.St) : VChan.St :=
  { c with R := upd c.R c.nextR { status := .done }, nextR := c.nextR + 1, n := c.n - 1#64,
           log := c.log ++ [Obs.doneR c.nextR .ok] }

/-- Waking the next one, or nobody. -/
theorem wake_eq {c : VChan.St} (hrq : c.rq = []) (hl : ∀ i ∈ c.wq, (c.W i).waiting = true) :
    c.wakeWriter = c ∨ ∃ w rest, c.wq = w :: rest ∧ c.wakeWriter =
      { c with wq := rest, W := upd c.W w { c.W w with waiting := false }, posted := c.posted ++ [.w w] } := by
  unfold VChan.St.wakeWriter
  split
  · exact Or.inl rfl
  · rename_i w rest hq
    have := hl w (by simp [hq])
    dsimp only
    rw [if_pos this]
    split
    · exact Or.inr ⟨w, rest, hq, by simp [hrq]⟩
    · left
      simp [hrq]
      cases c
      simp_all

/-- Leaving. -/
theorem Inv.leave {k : BitVec 64} {s : St} {l : List Nat} (h : Inv k s l) {u : Nat} (conn : Bool)
    (hu : u < s.users) (ho : s.ph u = .inside) :
    Inv k (s.step (.release u conn)) (l.erase u) ∧ (Room s → Room (s.step (.release u conn))) := by
  have hm : u ∈ l := (h.mem u).2 ho
  have hpos : 0 < l.length := List.length_pos_of_mem hm
  have hn : (s.ch.n - 1#64).toNat = s.ch.n.toNat - 1 := VChan.sub_one_toNat (by rw [h.cnt]; omega)
  have hr : s.ch.readReady = true := (readReady_iff h.ok).2 (by rw [h.cnt]; exact hpos)
  have ec : (s.step (.release u conn)).ch =
      s.ch.left.wakeWriter := by
    rw [← steps_leave h.ok conn hr]
    simp [St.step, St.events, hu, ho]
  have hlg : Obs.doneR s.ch.nextR .ok ∈ (s.step (.release u conn)).ch.log ∧
      ((s.step (.release u conn)).ch.R s.ch.nextR).status = .done ∧
      ∀ i, ((s.step (.release u conn)).ch.W i).status = (s.ch.W i).status := by
    rw [ec]
    rcases wake_eq (c := s.ch.left) h.ok.rq h.ok.link with e | ⟨w, rest, _, e⟩
    · rw [e]; simp [VChan.upd_apply]
    · rw [e]
      refine ⟨by simp, by simp [VChan.upd_apply], fun i => ?_⟩
      simp only [VChan.upd_apply]; split
      · rename_i e; rw [e]
      · rfl
  have ep : ∀ v, (s.step (.release u conn)).ph v = if v = u then .out else s.ph v := by
    intro v
    show goOn (s.step (.release u conn)).ch (s.phase (.release u conn) v) = _
    simp only [St.phase, hu, ho, and_self, if_true]
    by_cases hv : v = u
    · simp [hv, goOn, hlg.1, hlg.2.1]
    · simp only [hv, if_false]
      refine goOn_eq (fun i hi => ?_) (h.stays v)
      rw [hlg.2.2 i, h.wait v i hi]
  have hub : (s.step (.release u conn)).ch.ub = false := by
    rw [ec]
    rcases wake_eq (c := s.ch.left) h.ok.rq h.ok.link with e | ⟨w, rest, _, e⟩
    · rw [e]; exact h.ok.ub
    · rw [e]; exact h.ok.ub
  have hwf : WF (s.step (.release u conn)).ch none := wf_steps _ h.ok.wf hub
  have hus : (s.step (.release u conn)).users = s.users := rfl
  have hlen : (l.erase u).length = l.length - 1 := List.length_erase_of_mem hm
  have ok := h.ok
  have hnl : ∀ v, v ∈ l.erase u ↔ if v = u then Phase.out = .inside else v ∈ l := fun v => by
    rw [h.nd.mem_erase_iff]
    split <;> simp_all
  generalize s.step (.release u conn) = s' at *
  obtain ⟨c', us', ph'⟩ := s'
  dsimp only at *
  rcases wake_eq (c := s.ch.left) h.ok.rq h.ok.link with e | ⟨w, rest, hq, e⟩
  · rw [e] at ec
    subst ec
    refine ⟨h.build ?_ rfl hus u hu .out ep (by simp) (by simp) ?_ ?_ ⟨h.nd.erase _, hnl, ?_⟩, fun hm => ?_⟩
    · constructor <;> (cases ok; simp only [VChan.upd_apply] at *; grind)
    · grind
    · grind
    · rw [hn, h.cnt, hlen]
    · have hm : s.ch.n.toNat + s.ch.posted.countP s.ch.puts ≤ s.ch.limit.toNat := hm
      show (s.ch.n - 1#64).toNat + s.ch.posted.countP s.ch.puts ≤ s.ch.limit.toNat
      omega
  · rw [e] at ec
    subst ec
    have hwq : s.ch.wq = w :: rest := hq
    have hnp : Tok.w w ∉ s.ch.posted := fun hx => by
      have := (ok.wf.wpost w hx).2.2.1
      rw [hwq] at this; simp at this
    have hndq : w ∉ rest := by
      have := ok.wf.ndW
      rw [hwq] at this
      exact (List.nodup_cons.1 this).1
    refine ⟨h.build ?_ rfl hus u hu .out ep (by simp) (by simp) ?_ ?_ ⟨h.nd.erase _, hnl, ?_⟩, fun hm => ?_⟩
    · constructor <;> (cases ok; simp only [VChan.upd_apply] at *; grind)
    · grind
    · grind
    · rw [hn, h.cnt, hlen]
    · have hm : s.ch.n.toNat + s.ch.posted.countP s.ch.puts ≤ s.ch.limit.toNat := hm
      have hc := h.cnt
      show (s.ch.n - 1#64).toNat + (s.ch.posted ++ [Tok.w w]).countP _ ≤ s.ch.limit.toNat
      rw [List.countP_append]
      refine Nat.le_trans (Nat.add_le_add_left (Nat.add_le_add_left List.countP_le_length _) _) ?_
      rw [Chan.countP_eq (q := s.ch.puts) (l := s.ch.posted) fun x hx => ?_]
      · simp only [List.length_singleton]; omega
      · cases x with
        | r i => rfl
        | w i =>
          have : i ≠ w := fun e => hnp (e ▸ hx)
          simp [VChan.St.puts, VChan.upd_apply, this]

end Cobalt.Lock
