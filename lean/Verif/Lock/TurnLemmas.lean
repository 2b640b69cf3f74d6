import Verif.Lock.TurnSpec
/-!
# Lemmas for C128

include/boost/cobalt/impl/channel.hpp:326-426, src/channel.cpp:67-77.
-/
namespace Cobalt.Lock

open Chan (Status Tok upd)
open VChan (WF Obs Res)

theorem idxOf_erase_le (l : List Nat) (i j : Nat) (h : j ≠ i) : (l.erase j).idxOf i ≤ l.idxOf i := by
  induction l with
  | nil => simp
  | cons a l ih =>
    rw [List.erase_cons]
    split
    · rename_i e
      have : a = j := by simpa using e
      subst this
      rw [List.idxOf_cons, beq_false_of_ne h]
      exact Nat.le_succ _
    · rw [List.idxOf_cons, List.idxOf_cons]
      cases a == i
      · exact Nat.succ_le_succ ih
      · exact Nat.le_refl _

/-- Who waits unwoken is in line. -/
theorem Inv.inLine {k : BitVec 64} {s : St} {l : List Nat} (h : Inv k s l) {u i : Nat} (hw : Waits s u i) :
    i ∈ s.ch.wq := by
  rcases h.ok.wf.wsusp i (h.wait u i hw.1) with h1 | h1 | h1
  · exact (h.ok.wf.wwait i h1).2
  · exact absurd h1 hw.2
  · cases h1

/-- What is left to be given back before the turn of write `i`. -/
def owed (s : St) (i : Nat) : Nat :=
  2 * ahead s i + s.ch.posted.countP s.ch.puts + (s.ch.n.toNat - s.ch.limit.toNat)

theorem owed_acquire {k : BitVec 64} {s : St} {l : List Nat} (h : Inv k s l) (hN : s.users < 2 ^ 64) {u i : Nat}
    (v : Nat) (conn : Bool) (hw : Waits s u i) : owed (s.step (.acquire v conn)) i ≤ owed s i := by
  have hi := h.inLine hw
  by_cases hv : v < s.users ∧ s.ph v = .out
  · have hnew := h.fresh
    have hpost : Tok.w s.ch.nextW ∉ s.ch.posted := fun hx => by
      have := (h.ok.wf.wpost _ hx).1; rw [hnew] at this; cases this
    have hsame : ∀ (c : VChan.St) (w : _), c.W = upd s.ch.W s.ch.nextW w →
        s.ch.posted.countP c.puts = s.ch.posted.countP s.ch.puts := by
      intro c w hc
      refine Chan.countP_eq fun x hx => ?_
      cases x with
      | r i => rfl
      | w j =>
        have : j ≠ s.ch.nextW := fun e => hpost (e ▸ hx)
        simp [VChan.St.puts, hc, VChan.upd_apply, this]
    cases hr : s.ch.writeReady with
    | true =>
      have hlt := (writeReady_iff h.ok).1 hr
      have hn : (s.ch.n + 1#64).toNat = s.ch.n.toNat + 1 :=
        VChan.add_one_toNat (by have := s.ch.limit.isLt; omega)
      have ec : (s.step (.acquire v conn)).ch =
          { s.ch with W := upd s.ch.W s.ch.nextW { status := .done }, nextW := s.ch.nextW + 1, n := s.ch.n + 1#64,
                      log := s.ch.log ++ [Obs.doneW s.ch.nextW .ok] } := by
        rw [← steps_ready h.ok conn hr]
        simp [St.step, St.events, hv]
      unfold owed ahead
      rw [ec]
      dsimp only
      rw [hsame _ _ rfl, hn]
      omega
    | false =>
      have ec : (s.step (.acquire v conn)).ch =
          { s.ch with W := upd s.ch.W s.ch.nextW { status := .susp, waiting := true, slot := conn },
                      nextW := s.ch.nextW + 1, wq := s.ch.wq ++ [s.ch.nextW] } := by
        rw [← steps_full h.ok conn hr]
        simp [St.step, St.events, hv]
      unfold owed ahead
      rw [ec]
      dsimp only
      rw [hsame _ _ rfl, List.idxOf_append, if_pos hi]
      omega
  · rw [h.idle (.acquire v conn) (by simp [St.events, hv, VChan.St.steps]) (by simp [St.phase, hv])]
    exact Nat.le_refl _

theorem wake_exact {c : VChan.St} (hrq : c.rq = []) (hl : ∀ i ∈ c.wq, (c.W i).waiting = true) {w : Nat} {rest : List Nat}
    (hq : c.wq = w :: rest) : c.wakeWriter = if c.writeReady then
      { c with wq := rest, W := upd c.W w { c.W w with waiting := false }, posted := c.posted ++ [.w w] } else c := by
  unfold VChan.St.wakeWriter
  split
  · rename_i e; rw [e] at hq; cases hq
  · rename_i w' rest' e
    obtain ⟨rfl, rfl⟩ : w' = w ∧ rest' = rest := by rw [e] at hq; exact List.cons.inj hq
    have hwt := hl w' (by simp [e])
    have ha : (c.asserted || decide (c.rq ≠ [])) = c.asserted := by simp [hrq]
    dsimp only
    rw [if_pos hwt, ha]

theorem owed_release {k : BitVec 64} {s : St} {l : List Nat} (h : Inv k s l) {u i : Nat} (v : Nat) (conn : Bool)
    (hw : Waits s u i) (hv : v < s.users ∧ s.ph v = .inside) (hw' : Waits (s.step (.release v conn)) u i) :
    owed (s.step (.release v conn)) i + 1 ≤ owed s i ∧
    (s.ch.n.toNat ≤ s.ch.limit.toNat → ahead (s.step (.release v conn)) i + 1 ≤ ahead s i) := by
  have hi := h.inLine hw
  have hm : v ∈ l := (h.mem v).2 hv.2
  have hpos : 0 < l.length := List.length_pos_of_mem hm
  have hcnt := h.cnt
  have hr : s.ch.readReady = true := (readReady_iff h.ok).2 (by rw [h.cnt]; exact hpos)
  have ec : (s.step (.release v conn)).ch = s.ch.left.wakeWriter := by
    rw [← steps_leave h.ok conn hr]
    simp [St.step, St.events, hv]
  have hn : (s.ch.n - 1#64).toNat = s.ch.n.toNat - 1 := VChan.sub_one_toNat (by omega)
  obtain ⟨w, rest, hq⟩ : ∃ w rest, s.ch.wq = w :: rest := by
    cases hq : s.ch.wq with
    | nil => rw [hq] at hi; cases hi
    | cons w rest => exact ⟨w, rest, rfl⟩
  rw [wake_exact (c := s.ch.left) h.ok.rq h.ok.link hq] at ec
  have hrd : s.ch.left.writeReady = true ↔ s.ch.n.toNat - 1 < s.ch.limit.toNat := by
    rw [← hn]
    simp [VChan.St.writeReady, h.ok.opened, BitVec.ult]
  have hl' : s.ch.left.posted = s.ch.posted ∧ s.ch.left.n = s.ch.n - 1#64 ∧ s.ch.left.limit = s.ch.limit ∧
    s.ch.left.wq = s.ch.wq ∧ s.ch.left.W = s.ch.W := ⟨rfl, rfl, rfl, rfl, rfl⟩
  obtain ⟨l1, l2, l3, l4, l5⟩ := hl'
  by_cases hrr : s.ch.left.writeReady = true
  · have hlt := hrd.1 hrr
    rw [if_pos hrr] at ec
    have hne : w ≠ i := by
      rintro rfl
      refine hw'.2 ?_
      rw [ec]; simp
    have hwq : Tok.w w ∉ s.ch.posted := fun hx => (h.ok.wf.wpost w hx).2.2.1 (by rw [hq]; simp)
    have hca : ahead s i = rest.idxOf i + 1 := by
      unfold ahead
      rw [hq, List.idxOf_cons, beq_false_of_ne hne]
      rfl
    have hah : ahead (s.step (.release v conn)) i = rest.idxOf i := by unfold ahead; rw [ec]
    refine ⟨?_, fun _ => by omega⟩
    have hcp : (s.step (.release v conn)).ch.posted.countP (s.step (.release v conn)).ch.puts ≤
        s.ch.posted.countP s.ch.puts + 1 := by
      rw [ec]
      dsimp only
      rw [List.countP_append, l1, l5]
      refine Nat.add_le_add (Nat.le_of_eq (Chan.countP_eq fun x hx => ?_)) List.countP_le_length
      cases x with
      | r j => rfl
      | w j =>
        have : j ≠ w := fun e => hwq (e ▸ hx)
        simp [VChan.St.puts, VChan.upd_apply, this]
    have hnn : (s.step (.release v conn)).ch.n.toNat = s.ch.n.toNat - 1 ∧
        (s.step (.release v conn)).ch.limit = s.ch.limit := by
      rw [ec]; exact ⟨hn, l3⟩
    unfold owed
    rw [hah, hca, hnn.1, hnn.2]
    omega
  · have hge : ¬ s.ch.n.toNat - 1 < s.ch.limit.toNat := fun e => hrr (hrd.2 e)
    rw [if_neg hrr] at ec
    refine ⟨?_, fun hle => by omega⟩
    unfold owed ahead
    rw [ec, l1, l2, l3, l4, hn]
    have : s.ch.posted.countP s.ch.left.puts = s.ch.posted.countP s.ch.puts :=
      Chan.countP_eq fun x _ => by cases x <;> rfl
    rw [this]
    omega

theorem owed_run {k : BitVec 64} {s : St} {l : List Nat} (h : Inv k s l) (hN : s.users < 2 ^ 64) (m i : Nat) :
    owed (s.step (.run m)) i ≤ owed s i ∧ ahead (s.step (.run m)) i = ahead s i := by
  have ht := (h.total hN m).1
  have hmono : s.ch.n.toNat ≤ (s.step (.run m)).ch.n.toNat ∧ (s.step (.run m)).ch.wq = s.ch.wq ∧
      (s.step (.run m)).ch.limit = s.ch.limit := by
    have ec0 : (s.step (.run m)).ch = s.ch.steps [.run m] := rfl
    rcases hk : s.ch.posted[m]? with _ | t
    · have e : s.ch.steps [.run m] = s.ch := by
        rw [steps_one]
        simp [VChan.St.step, h.ok.ub, VChan.St.run, hk]
      rw [ec0, e]
      exact ⟨Nat.le_refl _, rfl, rfl⟩
    · have hmem : t ∈ s.ch.posted := List.mem_of_getElem? hk
      cases t with
      | r i => exact absurd hmem (h.ok.postR i)
      | w j =>
        have hsusp := (h.ok.wf.wpost j hmem).1
        obtain ⟨u, hu⟩ := h.has j hsusp
        have hul : u < s.users := h.few u (by rw [hu]; simp)
        have hnl : u ∉ l := fun hm => by have := (h.mem u).1 hm; rw [hu] at this; cases this
        have hlen : l.length + 1 ≤ s.users := by
          have : (u :: l).length ≤ (List.range s.users).length :=
            (List.subperm_of_subset (List.nodup_cons.2 ⟨hnl, h.nd⟩) fun v hv => by
            rw [List.mem_range]
            rcases List.mem_cons.1 hv with rfl | hv
            · exact hul
            · exact h.few v (by rw [(h.mem v).1 hv]; simp)).length_le
          simpa using this
        have hn : (s.ch.n + 1#64).toNat = s.ch.n.toNat + 1 := VChan.add_one_toNat (by rw [h.cnt]; omega)
        rw [steps_run h.ok hk] at ec0
        rw [ec0]
        split
        · exact ⟨Nat.le_refl _, rfl, rfl⟩
        · exact ⟨by dsimp only; omega, rfl, rfl⟩
  obtain ⟨h1, h2, h3⟩ := hmono
  have ha : ahead (s.step (.run m)) i = ahead s i := by unfold ahead; rw [h2]
  refine ⟨?_, ha⟩
  unfold owed
  rw [ha, h3]
  omega

theorem owed_cancel {k : BitVec 64} {s : St} {l : List Nat} (h : Inv k s l) {u i : Nat} (v : Nat)
    (hw : Waits s u i) (hw' : Waits (s.step (.cancel v)) u i) :
    owed (s.step (.cancel v)) i ≤ owed s i ∧ ahead (s.step (.cancel v)) i ≤ ahead s i := by
  have hidle : s.ch.steps (s.events (.cancel v)) = s.ch → owed (s.step (.cancel v)) i ≤ owed s i ∧
      ahead (s.step (.cancel v)) i ≤ ahead s i := fun e => by
    rw [h.idle _ e rfl]; exact ⟨Nat.le_refl _, Nat.le_refl _⟩
  rcases hp : s.ph v with _ | j | _ | j
  · exact hidle (by simp [St.events, hp, VChan.St.steps])
  · have hev : s.events (.cancel v) = [.cancelW j] := by simp [St.events, hp]
    have hst : s.ch.steps (s.events (.cancel v)) = s.ch.cancelW j := by
      rw [hev, steps_one]; simp [VChan.St.step, h.ok.ub]
    by_cases hs : (s.ch.W j).slot = true
    · have ec : (s.step (.cancel v)).ch = s.ch.cancelW j := hst
      unfold VChan.St.cancelW at ec
      rw [if_pos hs] at ec
      have hne : j ≠ i := by
        rintro rfl
        have hq := h.inLine hw
        refine hw'.2 ?_
        rw [ec]
        simp [h.ok.link j hq]
      have ha : ahead (s.step (.cancel v)) i ≤ ahead s i := by
        unfold ahead; rw [ec]; exact idxOf_erase_le _ _ _ hne
      refine ⟨?_, ha⟩
      have key : (s.step (.cancel v)).ch.posted.countP (s.step (.cancel v)).ch.puts ≤ s.ch.posted.countP s.ch.puts := by
        rw [ec]
        dsimp only
        have hf : ∀ x, VChan.St.puts { s.ch with
            W := upd s.ch.W j { s.ch.W j with cancelled := true, slot := false, waiting := false }
            wq := s.ch.wq.erase j
            posted := if (s.ch.W j).waiting then s.ch.posted ++ [.w j] else s.ch.posted } x = true →
            s.ch.puts x = true ∧ x ≠ .w j := by
          intro x hx
          cases x with
          | r j => simp [VChan.St.puts] at hx
          | w a =>
            simp only [VChan.St.puts, VChan.upd_apply] at hx ⊢
            split at hx
            · simp at hx
            · rename_i hne
              exact ⟨hx, by simpa using hne⟩
        generalize VChan.St.puts _ = f at *
        have k1 : s.ch.posted.countP f ≤ s.ch.posted.countP s.ch.puts :=
          List.countP_mono_left fun x _ hx => (hf x hx).1
        have k2 : f (.w j) = false := by
          cases e : f (.w j) with
          | false => rfl
          | true => exact absurd rfl (hf _ e).2
        split
        · rw [List.countP_append, List.countP_cons, List.countP_nil, k2]
          simp only [Bool.false_eq_true, if_false]
          omega
        · omega
      have hnl : (s.step (.cancel v)).ch.n = s.ch.n ∧ (s.step (.cancel v)).ch.limit = s.ch.limit := by
        rw [ec]; exact ⟨rfl, rfl⟩
      unfold owed
      rw [hnl.1, hnl.2]
      omega
    · exact hidle (by rw [hst]; unfold VChan.St.cancelW; rw [if_neg hs])
  · exact hidle (by simp [St.events, hp, VChan.St.steps])
  · exact absurd hp (h.stays v j)

theorem owed_timeout {k : BitVec 64} {s : St} {l : List Nat} (h : Inv k s l) {u i : Nat} (v : Nat)
    (hw : Waits s u i) (hw' : Waits (s.step (.timeout v)) u i) :
    owed (s.step (.timeout v)) i ≤ owed s i ∧ ahead (s.step (.timeout v)) i ≤ ahead s i := by
  have hidle : s.events (.timeout v) = [] → owed (s.step (.timeout v)) i ≤ owed s i ∧
      ahead (s.step (.timeout v)) i ≤ ahead s i := fun e => by
    rw [h.idle _ (by rw [e]; rfl) rfl]; exact ⟨Nat.le_refl _, Nat.le_refl _⟩
  rcases hp : s.ph v with _ | j | _ | j
  · exact hidle (by simp [St.events, hp])
  · have hev : s.events (.timeout v) = [.intW j, .dropW j] := by simp [St.events, hp]
    have ec : (s.step (.timeout v)).ch = s.ch.steps [.intW j, .dropW j] := by rw [← hev]; rfl
    have hs := h.wait v j hp
    have fin : ahead (s.step (.timeout v)) i ≤ ahead s i →
        (s.step (.timeout v)).ch.posted = s.ch.posted → (s.step (.timeout v)).ch.n = s.ch.n →
        (s.step (.timeout v)).ch.limit = s.ch.limit →
        (∀ x, (s.step (.timeout v)).ch.puts x = true → s.ch.puts x = true) →
        owed (s.step (.timeout v)) i ≤ owed s i ∧ ahead (s.step (.timeout v)) i ≤ ahead s i := by
      intro ha e1 e2 e3 e4
      refine ⟨?_, ha⟩
      have : s.ch.posted.countP (s.step (.timeout v)).ch.puts ≤ s.ch.posted.countP s.ch.puts :=
        List.countP_mono_left fun x _ hx => e4 x hx
      unfold owed
      rw [e1, e2, e3]
      omega
    have hputs : ∀ (c : VChan.St) (o : VChan.Op) (x : Tok), c.W = upd s.ch.W j o → o.cancelled = true →
        c.puts x = true → s.ch.puts x = true := by
      intro c o x e1 e2 hx
      cases x with
      | r j => simp [VChan.St.puts] at hx
      | w a =>
        simp only [VChan.St.puts, e1, VChan.upd_apply] at hx ⊢
        split at hx
        · simp [e2] at hx
        · exact hx
    cases hq : (s.ch.W j).waiting with
    | true =>
      rw [steps_quit h.ok hs hq] at ec
      have hne : j ≠ i := by
        rintro rfl
        have h1 := (Inv.timeout h v).1.wait u j hw'.1
        rw [ec] at h1
        simp [VChan.upd_apply] at h1
      refine fin ?_ (by rw [ec]) (by rw [ec]) (by rw [ec]) fun x => ?_
      · unfold ahead; rw [ec]; exact idxOf_erase_le _ _ _ hne
      · exact hputs _ _ x (by rw [ec]) rfl
    | false =>
      rw [steps_spurn h.ok hs hq] at ec
      refine fin ?_ (by rw [ec]) (by rw [ec]) (by rw [ec]) fun x => ?_
      · unfold ahead; rw [ec]; exact Nat.le_refl _
      · exact hputs _ _ x (by rw [ec]) rfl
  · exact hidle (by simp [St.events, hp])
  · exact absurd hp (h.stays v j)

/-- Nothing makes the wait longer, and a place given back makes it shorter. -/
theorem owed_step {k : BitVec 64} {s : St} {l : List Nat} (h : Inv k s l) (hN : s.users < 2 ^ 64) {u i : Nat} (e : Ev)
    (hw : Waits s u i) (hw' : Waits (s.step e) u i) :
    owed (s.step e) i + (if Gives s e then 1 else 0) ≤ owed s i := by
  cases e with
  | acquire v conn => simpa [Gives] using owed_acquire h hN v conn hw
  | release v conn =>
    by_cases hv : v < s.users ∧ s.ph v = .inside
    · have := (owed_release h v conn hw hv hw').1
      simpa [Gives, hv] using this
    · rw [h.idle (.release v conn) (by simp [St.events, hv, VChan.St.steps]) (by simp [St.phase, hv])]
      simp [Gives, hv]
  | run m => simpa [Gives] using (owed_run h hN m i).1
  | cancel v => simpa [Gives] using (owed_cancel h v hw hw').1
  | timeout v => simpa [Gives] using (owed_timeout h v hw hw').1

theorem WaitsAll.head {u i : Nat} : ∀ {es : List Ev} {s : St}, WaitsAll s u i es → Waits s u i
  | [], _, h => h
  | _ :: _, _, h => h.1

theorem owed_steps {k : BitVec 64} {u i : Nat} (es : List Ev) : ∀ {s : St} {l : List Nat}, Inv k s l →
    s.users < 2 ^ 64 → WaitsAll s u i es → gives s es ≤ owed s i := by
  induction es with
  | nil => exact fun _ _ _ => Nat.zero_le _
  | cons e es ih =>
    intro s l h hN hw
    obtain ⟨l1, h1, _⟩ := h.step hN e
    have hu : (s.step e).users < 2 ^ 64 := hN
    have := ih h1 hu hw.2
    have := owed_step h hN e hw.1 hw.2.head
    unfold gives
    omega

/-- While no more are inside than there are places, each place given back moves the line. -/
theorem ahead_step {k : BitVec 64} {s : St} {l : List Nat} (h : Inv k s l) (hN : s.users < 2 ^ 64) {u i : Nat} (e : Ev)
    (hw : Waits s u i) (hw' : Waits (s.step e) u i) (hle : s.ch.n.toNat ≤ s.ch.limit.toNat) :
    ahead (s.step e) i + (if Gives s e then 1 else 0) ≤ ahead s i := by
  cases e with
  | acquire v conn =>
    have hi := h.inLine hw
    have : ahead (s.step (.acquire v conn)) i = ahead s i := by
      by_cases hv : v < s.users ∧ s.ph v = .out
      · cases hr : s.ch.writeReady with
        | true =>
          have ec : (s.step (.acquire v conn)).ch.wq = s.ch.wq := by
            have := congrArg VChan.St.wq (steps_ready h.ok conn hr)
            simpa [St.step, St.events, hv] using this
          unfold ahead; rw [ec]
        | false =>
          have ec : (s.step (.acquire v conn)).ch.wq = s.ch.wq ++ [s.ch.nextW] := by
            have := congrArg VChan.St.wq (steps_full h.ok conn hr)
            simpa [St.step, St.events, hv] using this
          unfold ahead; rw [ec, List.idxOf_append, if_pos hi]
      · rw [h.idle (.acquire v conn) (by simp [St.events, hv, VChan.St.steps]) (by simp [St.phase, hv])]
    simp [Gives, this]
  | release v conn =>
    by_cases hv : v < s.users ∧ s.ph v = .inside
    · have := (owed_release h v conn hw hv hw').2 hle
      simpa [Gives, hv] using this
    · rw [h.idle (.release v conn) (by simp [St.events, hv, VChan.St.steps]) (by simp [St.phase, hv])]
      simp [Gives, hv]
  | run m => simp [Gives, (owed_run h hN m i).2]
  | cancel v => simpa [Gives] using (owed_cancel h v hw hw').2
  | timeout v => simpa [Gives] using (owed_timeout h v hw hw').2

theorem steps_users (es : List Ev) : ∀ s : St, (s.steps es).users = s.users := by
  induction es with
  | nil => exact fun _ => rfl
  | cons e es ih => exact fun s => ih (s.step e)

theorem exec_users (k : BitVec 64) (users : Nat) (es : List Ev) : (exec k users es).users = users := steps_users es _

theorem politeAll_append (es : List Ev) {es' : List Ev} : ∀ {s : St}, PoliteAll s (es ++ es') →
    PoliteAll s es ∧ PoliteAll (s.steps es) es' := by
  induction es with
  | nil => exact fun h => ⟨trivial, h⟩
  | cons e es ih =>
    intro s h
    obtain ⟨h1, h2⟩ := ih h.2
    exact ⟨⟨h.1, h1⟩, h2⟩

theorem Room.init (k : BitVec 64) (users : Nat) : Room (St.init k users) := Nat.zero_le _

end Cobalt.Lock
