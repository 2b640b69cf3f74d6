import Verif.Lock.Step
/-!
# Lemmas for C99: resumptions and cancellations, and whole histories
-/
namespace Cobalt.Lock

open Chan (Status Tok upd)
open VChan (WF Obs Res)

/-- Nothing happens to anybody. -/
theorem goOn_self {k : BitVec 64} {s : St} {l : List Nat} (h : Inv k s l) (v : Nat) : goOn s.ch (s.ph v) = s.ph v :=
  goOn_eq (fun i hi => h.wait v i hi) (h.stays v)

theorem Inv.idle {k : BitVec 64} {s : St} {l : List Nat} (h : Inv k s l) (e : Ev) (he : s.ch.steps (s.events e) = s.ch)
    (hp : s.phase e = s.ph) : s.step e = s := by
  unfold St.step
  rw [he, hp]
  have : (fun v => goOn s.ch (s.ph v)) = s.ph := funext fun v => goOn_self h v
  simp only [this]

/-- A woken coroutine runs. -/
theorem Inv.run {k : BitVec 64} {s : St} {l : List Nat} (h : Inv k s l) (hN : s.users < 2 ^ 64) (m : Nat) :
    ∃ l', Inv k (s.step (.run m)) l' ∧ (Room s → Room (s.step (.run m))) ∧
      l'.length ≤ l.length + 1 ∧ l.length ≤ l'.length + 1 := by
  rcases hk : s.ch.posted[m]? with _ | t
  · have e : s.step (.run m) = s := h.idle _ (by
      show s.ch.steps [.run m] = _
      rw [steps_one]
      simp [VChan.St.step, h.ok.ub, VChan.St.run, hk]) rfl
    rw [e]
    exact ⟨l, h, id, by omega, by omega⟩
  · have hmem : t ∈ s.ch.posted := List.mem_of_getElem? hk
    cases t with
    | r i => exact absurd hmem (h.ok.postR i)
    | w i =>
      have hsusp := (h.ok.wf.wpost i hmem).1
      have hnq := (h.ok.wf.wpost i hmem).2.2.1
      obtain ⟨u, hu⟩ := h.has i hsusp
      have hul : u < s.users := h.few u (by rw [hu]; simp)
      have hnl : u ∉ l := fun hm => by have := (h.mem u).1 hm; rw [hu] at this; cases this
      have hlen : l.length + 1 ≤ s.users := by
        have : (u :: l).length ≤ (List.range s.users).length :=
          (List.subperm_of_subset (List.nodup_cons.2 ⟨hnl, h.nd⟩) fun v hv => by
          rw [List.mem_range]
          rcases List.mem_cons.1 hv with rfl | hv
          · exact hul
          · exact h.few v (by rw [(h.mem v).1 hv]; simp)).length_le
        simpa using this
      have hn : (s.ch.n + 1#64).toNat = s.ch.n.toNat + 1 := VChan.add_one_toNat (by rw [h.cnt]; omega)
      have hnp : Tok.w i ∉ s.ch.posted.eraseIdx m := fun hx =>
        absurd rfl ((VChan.nodup_eraseIdx_mem h.ok.wf.ndP hk _).1 hx).2
      have hsub : ∀ x ∈ s.ch.posted.eraseIdx m, x ∈ s.ch.posted := fun x hx => List.mem_of_mem_eraseIdx hx
      have hcount := Chan.countP_eraseIdx s.ch.puts s.ch.posted m (.w i) hk
      have ec0 : (s.step (.run m)).ch = s.ch.steps [.run m] := rfl
      rw [steps_run h.ok hk] at ec0
      have hus : (s.step (.run m)).users = s.users := rfl
      have ok := h.ok
      by_cases hc : (s.ch.W i).cancelled = true
      · rw [if_pos hc] at ec0
        refine ⟨l, ?_⟩
        have ep : ∀ v, (s.step (.run m)).ph v = if v = u then .out else s.ph v := by
          intro v
          show goOn (s.step (.run m)).ch (s.ph v) = _
          rw [ec0]
          by_cases hv : v = u
          · subst hv
            simp only [hu, goOn, VChan.upd_apply, if_true]
            rw [if_pos (by simp), if_neg]
            simp only [List.mem_append, List.mem_singleton, not_or]
            refine ⟨fun hx => ?_, by simp⟩
            have := ok.logW i _ hx
            rw [hsusp] at this; simp at this
          · simp only [hv, if_false]
            refine goOn_eq (fun j hj => ?_) (h.stays v)
            have hne : j ≠ i := by rintro rfl; exact hv (h.one v u j hj hu)
            simp [VChan.upd_apply, hne, h.wait v j hj]
        have hwf : WF (s.step (.run m)).ch none := wf_steps _ h.ok.wf (by
          show (s.step (.run m)).ch.ub = false
          rw [ec0]; exact h.ok.ub)
        generalize s.step (.run m) = s' at *
        obtain ⟨c', us', ph'⟩ := s'
        dsimp only at *
        subst ec0
        refine ⟨h.build ?_ rfl hus u hul .out ep (by simp) (by simp) ?_ ?_ ⟨h.nd, ?_, h.cnt⟩, ?_, by omega, by omega⟩
        · constructor <;> (cases ok; simp only [VChan.upd_apply] at *; grind)
        · grind [VChan.upd_apply]
        · grind [VChan.upd_apply]
        · intro v; split <;> simp_all
        · intro hm
          have hm : s.ch.n.toNat + s.ch.posted.countP s.ch.puts ≤ s.ch.limit.toNat := hm
          show s.ch.n.toNat + (s.ch.posted.eraseIdx m).countP _ ≤ s.ch.limit.toNat
          rw [Chan.countP_eq (q := s.ch.puts) fun x hx => ?_]
          · omega
          · cases x with
            | r i => rfl
            | w j =>
              have : j ≠ i := fun e => hnp (e ▸ hx)
              simp [VChan.St.puts, VChan.upd_apply, this]
      · rw [if_neg hc] at ec0
        refine ⟨u :: l, ?_⟩
        have ep : ∀ v, (s.step (.run m)).ph v = if v = u then .inside else s.ph v := by
          intro v
          show goOn (s.step (.run m)).ch (s.ph v) = _
          rw [ec0]
          by_cases hv : v = u
          · subst hv
            simp [hu, goOn, VChan.upd_apply]
          · simp only [hv, if_false]
            refine goOn_eq (fun j hj => ?_) (h.stays v)
            have hne : j ≠ i := by rintro rfl; exact hv (h.one v u j hj hu)
            simp [VChan.upd_apply, hne, h.wait v j hj]
        have hwf : WF (s.step (.run m)).ch none := wf_steps _ h.ok.wf (by
          show (s.step (.run m)).ch.ub = false
          rw [ec0]; exact h.ok.ub)
        generalize s.step (.run m) = s' at *
        obtain ⟨c', us', ph'⟩ := s'
        dsimp only at *
        subst ec0
        refine ⟨h.build ?_ rfl hus u hul .inside ep (by simp) (by simp) ?_ ?_
          ⟨List.nodup_cons.2 ⟨hnl, h.nd⟩, ?_, by rw [hn, h.cnt]; rfl⟩, ?_, by simp, by simp only [List.length_cons]; omega⟩
        · constructor <;> (cases ok; simp only [VChan.upd_apply] at *; grind)
        · grind [VChan.upd_apply]
        · grind [VChan.upd_apply]
        · intro v; rw [List.mem_cons]; split <;> simp_all
        · intro hm
          have hm : s.ch.n.toNat + s.ch.posted.countP s.ch.puts ≤ s.ch.limit.toNat := hm
          show (s.ch.n + 1#64).toNat + (s.ch.posted.eraseIdx m).countP _ ≤ s.ch.limit.toNat
          have hpt : s.ch.puts (.w i) = true := by simp [VChan.St.puts, ok.dir, hc]
          rw [hpt] at hcount
          simp only [if_true] at hcount
          rw [Chan.countP_eq (q := s.ch.puts) fun x hx => ?_]
          · omega
          · cases x with
            | r i => rfl
            | w j =>
              have : j ≠ i := fun e => hnp (e ▸ hx)
              simp [VChan.St.puts, VChan.upd_apply, this]

/-- Cancelling. -/
theorem Inv.cancel {k : BitVec 64} {s : St} {l : List Nat} (h : Inv k s l) (u : Nat) :
    Inv k (s.step (.cancel u)) l ∧ (Room s → Room (s.step (.cancel u))) := by
  have hidle : s.ch.steps (s.events (.cancel u)) = s.ch → Inv k (s.step (.cancel u)) l ∧
      (Room s → Room (s.step (.cancel u))) := fun e => by
    rw [h.idle _ e rfl]; exact ⟨h, id⟩
  rcases hp : s.ph u with _ | i | _ | j
  · exact hidle (by simp [St.events, hp, VChan.St.steps])
  · have hev : s.events (.cancel u) = [.cancelW i] := by simp [St.events, hp]
    have hst : s.ch.steps (s.events (.cancel u)) = s.ch.cancelW i := by
      rw [hev, steps_one]; simp [VChan.St.step, h.ok.ub]
    by_cases hs : (s.ch.W i).slot = true
    · have hul : u < s.users := h.few u (by rw [hp]; simp)
      have hsusp := h.wait u i hp
      have ec : (s.step (.cancel u)).ch = s.ch.cancelW i := hst
      have hub : (s.step (.cancel u)).ch.ub = false := by
        rw [ec]; unfold VChan.St.cancelW; rw [if_pos hs]; exact h.ok.ub
      have hwf : WF (s.step (.cancel u)).ch none := wf_steps _ h.ok.wf hub
      unfold VChan.St.cancelW at ec
      rw [if_pos hs] at ec
      have hus : (s.step (.cancel u)).users = s.users := rfl
      have ep : ∀ v, (s.step (.cancel u)).ph v = s.ph v := by
        intro v
        show goOn (s.step (.cancel u)).ch (s.ph v) = _
        refine goOn_eq (fun j hj => ?_) (h.stays v)
        have := h.wait v j hj
        rw [ec]
        simp only [VChan.upd_apply]
        split
        · exact hsusp
        · exact this
      have ok := h.ok
      generalize s.step (.cancel u) = s' at *
      obtain ⟨c', us', ph'⟩ := s'
      dsimp only at *
      subst ec
      obtain rfl : ph' = s.ph := funext ep
      constructor
      · refine ⟨?_, h.limit, ?_, h.one, ?_, h.stays, ?_, h.nd, h.mem, h.cnt⟩
        · have hnd := ok.wf.ndW
          constructor <;> (cases ok; simp only [VChan.upd_apply] at *; grind)
        · intro v j hj
          have := h.wait v j hj
          simp only [VChan.upd_apply]; split
          · exact hsusp
          · exact this
        · intro j hj
          simp only [VChan.upd_apply] at hj
          exact h.has j (by split at hj <;> simp_all)
        · intro v hv; show v < us'; rw [hus]; exact h.few v hv
      · intro hm
        have hm : s.ch.n.toNat + s.ch.posted.countP s.ch.puts ≤ s.ch.limit.toNat := hm
        have key : ∀ (f : Tok → Bool), (∀ x, f x = true → s.ch.puts x = true ∧ x ≠ .w i) →
            s.ch.n.toNat + List.countP f (if (s.ch.W i).waiting = true then s.ch.posted ++ [Tok.w i]
              else s.ch.posted) ≤ s.ch.limit.toNat := by
          intro f hf
          have k1 : s.ch.posted.countP f ≤ s.ch.posted.countP s.ch.puts :=
            List.countP_mono_left fun x _ hx => (hf x hx).1
          have k2 : f (.w i) = false := by
            cases e : f (.w i) with
            | false => rfl
            | true => exact absurd rfl (hf _ e).2
          split
          · rw [List.countP_append, List.countP_cons, List.countP_nil, k2]
            simp only [Bool.false_eq_true, if_false]
            omega
          · omega
        refine key _ fun x hx => ?_
        cases x with
        | r j => simp [VChan.St.puts] at hx
        | w j =>
          simp only [VChan.St.puts, VChan.upd_apply] at hx ⊢
          split at hx
          · simp at hx
          · rename_i hne
            exact ⟨hx, by simpa using hne⟩
    · exact hidle (by rw [hst]; unfold VChan.St.cancelW; rw [if_neg hs])
  · exact hidle (by simp [St.events, hp, VChan.St.steps])
  · exact absurd hp (h.stays u j)

/-- Giving up. -/
theorem Inv.timeout {k : BitVec 64} {s : St} {l : List Nat} (h : Inv k s l) (u : Nat) :
    Inv k (s.step (.timeout u)) l ∧ (Room s → Room (s.step (.timeout u))) := by
  have hidle : s.events (.timeout u) = [] → Inv k (s.step (.timeout u)) l ∧
      (Room s → Room (s.step (.timeout u))) := fun e => by
    rw [h.idle _ (by rw [e]; rfl) rfl]; exact ⟨h, id⟩
  rcases hp : s.ph u with _ | i | _ | j
  · exact hidle (by simp [St.events, hp])
  · have hev : s.events (.timeout u) = [.intW i, .dropW i] := by simp [St.events, hp]
    have hul : u < s.users := h.few u (by rw [hp]; simp)
    have hsusp := h.wait u i hp
    have hus : (s.step (.timeout u)).users = s.users := rfl
    have ok := h.ok
    have ec : (s.step (.timeout u)).ch = s.ch.steps [.intW i, .dropW i] := by rw [← hev]; rfl
    have hnl : u ∉ l := fun hm => by have := (h.mem u).1 hm; rw [hp] at this; cases this
    cases hw : (s.ch.W i).waiting with
    | true =>
      rw [steps_quit ok hsusp hw] at ec
      have hwf : WF (s.step (.timeout u)).ch none := wf_steps _ h.ok.wf (by
        show (s.step (.timeout u)).ch.ub = false
        rw [ec]; exact h.ok.ub)
      have ep : ∀ v, (s.step (.timeout u)).ph v = if v = u then .out else s.ph v := by
        intro v
        show goOn (s.step (.timeout u)).ch (s.ph v) = _
        rw [ec]
        by_cases hv : v = u
        · subst hv
          simp only [hp, goOn, VChan.upd_apply, if_true]
          rw [if_pos (by simp), if_neg]
          simp only [List.mem_append, List.mem_singleton, not_or]
          refine ⟨fun hx => ?_, by simp⟩
          have := ok.logW i _ hx
          rw [hsusp] at this; simp at this
        · simp only [hv, if_false]
          refine goOn_eq (fun j hj => ?_) (h.stays v)
          have hne : j ≠ i := by rintro rfl; exact hv (h.one v u j hj hp)
          simp [VChan.upd_apply, hne, h.wait v j hj]
      have hnd := ok.wf.ndW
      have hnp : Tok.w i ∉ s.ch.posted := fun hx => by
        have := (ok.wf.wpost i hx).2.1; rw [hw] at this; cases this
      generalize s.step (.timeout u) = s' at *
      obtain ⟨c', us', ph'⟩ := s'
      dsimp only at *
      subst ec
      refine ⟨h.build ?_ rfl hus u hul .out ep (by simp) (by simp) ?_ ?_ ⟨h.nd, ?_, h.cnt⟩, ?_⟩
      · constructor <;> (cases ok; simp only [VChan.upd_apply] at *; grind)
      · grind [VChan.upd_apply]
      · grind [VChan.upd_apply]
      · intro v; split <;> simp_all
      · intro hm
        have hm : s.ch.n.toNat + s.ch.posted.countP s.ch.puts ≤ s.ch.limit.toNat := hm
        show s.ch.n.toNat + s.ch.posted.countP _ ≤ s.ch.limit.toNat
        rw [Chan.countP_eq (q := s.ch.puts) fun x hx => ?_]
        · exact hm
        · cases x with
          | r i => rfl
          | w j =>
            have : j ≠ i := fun e => hnp (e ▸ hx)
            simp [VChan.St.puts, VChan.upd_apply, this]
    | false =>
      rw [steps_spurn ok hsusp hw] at ec
      have hwf : WF (s.step (.timeout u)).ch none := wf_steps _ h.ok.wf (by
        show (s.step (.timeout u)).ch.ub = false
        rw [ec]; exact h.ok.ub)
      have ep : ∀ v, (s.step (.timeout u)).ph v = s.ph v := by
        intro v
        show goOn (s.step (.timeout u)).ch (s.ph v) = _
        rw [ec]
        refine goOn_eq (fun j hj => ?_) (h.stays v)
        have := h.wait v j hj
        simp only [VChan.upd_apply]; split
        · exact hsusp
        · exact this
      generalize s.step (.timeout u) = s' at *
      obtain ⟨c', us', ph'⟩ := s'
      dsimp only at *
      subst ec
      obtain rfl : ph' = s.ph := funext ep
      constructor
      · refine ⟨?_, h.limit, ?_, h.one, ?_, h.stays, ?_, h.nd, h.mem, h.cnt⟩
        · constructor <;> (cases ok; simp only [VChan.upd_apply] at *; grind)
        · intro v j hj
          have := h.wait v j hj
          simp only [VChan.upd_apply]; split
          · exact hsusp
          · exact this
        · intro j hj
          simp only [VChan.upd_apply] at hj
          exact h.has j (by split at hj <;> simp_all)
        · intro v hv; show v < us'; rw [hus]; exact h.few v hv
      · intro hm
        have hm : s.ch.n.toNat + s.ch.posted.countP s.ch.puts ≤ s.ch.limit.toNat := hm
        refine Nat.le_trans (Nat.add_le_add_left ?_ _) hm
        refine List.countP_mono_left fun x _ hx => ?_
        cases x with
        | r j => simp [VChan.St.puts] at hx
        | w j =>
          simp only [VChan.St.puts, VChan.upd_apply] at hx ⊢
          split at hx
          · simp at hx
          · exact hx
  · exact hidle (by simp [St.events, hp])
  · exact absurd hp (h.stays u j)

/-- Any event. -/
theorem Inv.step {k : BitVec 64} {s : St} {l : List Nat} (h : Inv k s l) (hN : s.users < 2 ^ 64) (e : Ev) :
    ∃ l', Inv k (s.step e) l' ∧ (Room s → Polite s e → Room (s.step e)) ∧
      l'.length ≤ l.length + 1 ∧ l.length ≤ l'.length + 1 := by
  have hidle : ∀ e, s.ch.steps (s.events e) = s.ch → s.phase e = s.ph → ∃ l', Inv k (s.step e) l' ∧
      (Room s → Polite s e → Room (s.step e)) ∧ l'.length ≤ l.length + 1 ∧ l.length ≤ l'.length + 1 :=
    fun e e1 e2 => by rw [h.idle e e1 e2]; exact ⟨l, h, fun hm _ => hm, by omega, by omega⟩
  cases e with
  | acquire u conn =>
    by_cases hu : u < s.users ∧ s.ph u = .out
    · cases hr : s.ch.writeReady with
      | true =>
        obtain ⟨h1, h2⟩ := h.ready hN conn hu.1 hu.2 hr
        exact ⟨_, h1, h2, by simp, by simp only [List.length_cons]; omega⟩
      | false =>
        obtain ⟨h1, h2⟩ := h.full conn hu.1 hu.2 hr
        exact ⟨_, h1, fun hm _ => h2 hm, by omega, by omega⟩
    · exact hidle _ (by simp only [St.events, if_neg hu]; rfl) (by simp only [St.phase, if_neg hu])
  | release u conn =>
    by_cases hu : u < s.users ∧ s.ph u = .inside
    · obtain ⟨h1, h2⟩ := h.leave conn hu.1 hu.2
      have : (l.erase u).length = l.length - 1 := List.length_erase_of_mem ((h.mem u).2 hu.2)
      exact ⟨_, h1, fun hm _ => h2 hm, by omega, by omega⟩
    · exact hidle _ (by simp only [St.events, if_neg hu]; rfl) (by simp only [St.phase, if_neg hu])
  | run m =>
    obtain ⟨l', h1, h2, h3⟩ := h.run hN m
    exact ⟨l', h1, fun hm _ => h2 hm, h3⟩
  | cancel u =>
    obtain ⟨h1, h2⟩ := h.cancel u
    exact ⟨l, h1, fun hm _ => h2 hm, by omega, by omega⟩
  | timeout u =>
    obtain ⟨h1, h2⟩ := h.timeout u
    exact ⟨l, h1, fun hm _ => h2 hm, by omega, by omega⟩

theorem counts_of {k : BitVec 64} {s s' : St} {l l' : List Nat} (h : Inv k s l) (h' : Inv k s' l')
    (h1 : l'.length ≤ l.length + 1) (h2 : l.length ≤ l'.length + 1) : VChan.Counts s.ch s'.ch := by
  have e1 := h.cnt
  have e2 := h'.cnt
  exact ⟨by omega, by omega⟩

theorem counts_refl (c : VChan.St) : VChan.Counts c c := ⟨by omega, by omega⟩

/-- Enough are woken. -/
theorem Inv.wk {k : BitVec 64} {s : St} {l : List Nat} (h : Inv k s l) (hN : s.users < 2 ^ 64) (e : Ev)
    (hs : Spares s e) (v : VChan.Wk s.ch none) : VChan.Wk (s.step e).ch none := by
  obtain ⟨l', h', _, h1, h2⟩ := h.step hN e
  have hc := counts_of h h' h1 h2
  have key : VChan.LeavesAll s.ch (s.events e) → VChan.CountsAll s.ch (s.events e) → VChan.Wk (s.step e).ch none := by
    intro a b
    rcases VChan.wk_exec (s.events e) (Or.inr ⟨h.ok.wf, v⟩) a b with hu | ⟨_, hw⟩
    · have : (s.step e).ch.ub = true := hu
      rw [h'.ok.ub] at this; cases this
    · exact hw
  have hc' : VChan.Counts s.ch (s.ch.steps (s.events e)) := hc
  cases e with
  | acquire u conn =>
    by_cases hu : u < s.users ∧ s.ph u = .out
    · have ev : s.events (.acquire u conn) = [.mkW, .awaitW s.ch.nextW conn false []] := by
        simp only [St.events, if_pos hu]
      rw [ev] at key hc'
      have hn : (s.ch.step .mkW).n = s.ch.n := by simp [VChan.St.step, h.ok.ub]
      refine key ⟨trivial, by simp [VChan.Leaves], trivial⟩ ⟨?_, ?_, trivial⟩
      · unfold VChan.Counts; rw [hn]; omega
      · unfold VChan.Counts at hc' ⊢; rw [hn]; exact hc'
    · have ev : s.events (.acquire u conn) = [] := by simp only [St.events, if_neg hu]
      rw [ev] at key
      exact key trivial trivial
  | release u conn =>
    by_cases hu : u < s.users ∧ s.ph u = .inside
    · have ev : s.events (.release u conn) = [.mkR, .awaitR s.ch.nextR conn false []] := by
        simp only [St.events, if_pos hu]
      rw [ev] at key hc'
      have hn : (s.ch.step .mkR).n = s.ch.n := by simp [VChan.St.step, h.ok.ub]
      refine key ⟨trivial, by simp [VChan.Leaves], trivial⟩ ⟨?_, ?_, trivial⟩
      · unfold VChan.Counts; rw [hn]; omega
      · unfold VChan.Counts at hc' ⊢; rw [hn]; exact hc'
    · have ev : s.events (.release u conn) = [] := by simp only [St.events, if_neg hu]
      rw [ev] at key
      exact key trivial trivial
  | run m => exact key ⟨trivial, trivial⟩ ⟨hc', trivial⟩
  | cancel u =>
    rcases hp : s.ph u with _ | i | _ | j
    · have ev : s.events (.cancel u) = [] := by simp [St.events, hp]
      rw [ev] at key
      exact key trivial trivial
    · have ev : s.events (.cancel u) = [.cancelW i] := by simp [St.events, hp]
      rw [ev] at key hc'
      simp only [Spares, hp] at hs
      exact key ⟨hs, trivial⟩ ⟨hc', trivial⟩
    · have ev : s.events (.cancel u) = [] := by simp [St.events, hp]
      rw [ev] at key
      exact key trivial trivial
    · exact absurd hp (h.stays u j)
  | timeout u =>
    rcases hp : s.ph u with _ | i | _ | j
    · have ev : s.events (.timeout u) = [] := by simp [St.events, hp]
      rw [ev] at key
      exact key trivial trivial
    · have ev : s.events (.timeout u) = [.intW i, .dropW i] := by simp [St.events, hp]
      rw [ev] at key hc'
      simp only [Spares, hp] at hs
      have hn : (s.ch.step (.intW i)).n = s.ch.n := by
        simp only [VChan.St.step, h.ok.ub, VChan.St.intW, VChan.St.resumeW, VChan.St.endW]
        repeat' split
        all_goals simp_all [VChan.upd_apply, h.ok.cl]
      refine key ⟨hs, trivial, trivial⟩ ⟨?_, ?_, trivial⟩
      · unfold VChan.Counts; rw [hn]; omega
      · unfold VChan.Counts at hc' ⊢; rw [hn]; exact hc'
    · have ev : s.events (.timeout u) = [] := by simp [St.events, hp]
      rw [ev] at key
      exact key trivial trivial
    · exact absurd hp (h.stays u j)

theorem Inv.wks {k : BitVec 64} (es : List Ev) : ∀ {s : St} {l : List Nat}, Inv k s l → s.users < 2 ^ 64 →
    SparesAll s es → VChan.Wk s.ch none → VChan.Wk (s.steps es).ch none := by
  induction es with
  | nil => exact fun _ _ _ v => v
  | cons e es ih =>
    intro s l h hN hs v
    obtain ⟨l1, h1, _⟩ := h.step hN e
    exact ih h1 (show (s.step e).users < 2 ^ 64 from hN) hs.2 (h.wk hN e hs.1 v)

theorem Inv.steps {k : BitVec 64} (es : List Ev) : ∀ {s : St} {l : List Nat}, Inv k s l → s.users < 2 ^ 64 →
    ∃ l', Inv k (s.steps es) l' ∧ (Room s → PoliteAll s es → Room (s.steps es)) := by
  induction es with
  | nil => exact fun h _ => ⟨_, h, fun hm _ => hm⟩
  | cons e es ih =>
    intro s l h hN
    obtain ⟨l1, h1, h2, _⟩ := h.step hN e
    obtain ⟨l2, h3, h4⟩ := ih h1 (show (s.step e).users < 2 ^ 64 from hN)
    exact ⟨l2, h3, fun hm hp => h4 (h2 hm hp.1) hp.2⟩

end Cobalt.Lock
