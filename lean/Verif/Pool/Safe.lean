import Verif.Pool.Inv
import Verif.Chan.PropsOrder
import Verif.Chan.ExactProps
import Verif.Chan.WakeProps
/-! Helper: when nothing goes wrong in a pool. -/
namespace Cobalt.Pool

open Chan (Tok Status Pl Tr lastTok upd upd_apply WF TK J I0 Q0 Prompt Spsc)

/-- What happens to the channel. -/
def St.evs (s : St) (e : Ev) : List Chan.Ev :=
  if s.ch.ub then []
  else match e, s.cur with
    | .go, some (.w _) => [.mkR, .awaitR s.ch.nextR true false []]
    | .go, some (.p i) => if s.todo i = 0 then [] else [.mkW, .awaitW s.ch.nextW true false []]
    | .run k, none => if k < s.ch.posted.length then [.run k] else []
    | _, _ => []

theorem step_ch (s : St) (e : Ev) : (s.step e).ch = s.ch.steps (s.evs e) := by
  unfold St.step St.evs
  split
  · rfl
  · split
    · simp [Chan.St.steps, *]
    · simp [Chan.St.steps, *]
    · rename_i c hc
      cases c with
      | w i => simp [hc, St.goOn]
      | p i =>
        simp only [hc, St.goOn]
        split <;> simp [Chan.St.steps]
    · simp [Chan.St.steps, *]
    · rename_i k hc
      simp only [hc]
      split <;> simp [Chan.St.steps]
    · rename_i k hc
      simp only [hc]
      split <;> simp [Chan.St.steps]
    · rename_i e c h1 h2 h3 h4 h5 h6
      cases e <;> cases hc : s.cur <;> simp_all [Chan.St.steps]

/-- Events that are not cancellations and the like. -/
def plain : Chan.Ev → Prop
  | .mkR | .mkW | .run _ => True
  | .awaitR _ _ txn hits => txn = false ∧ hits = []
  | .awaitW _ _ txn hits => txn = false ∧ hits = []
  | _ => False

theorem evs_plain (s : St) (e : Ev) : ∀ x ∈ s.evs e, plain x := by
  unfold St.evs
  split
  · simp
  · split
    · simp [plain]
    · split <;> simp [plain]
    · split <;> simp [plain]
    · simp

/-- The channel of a pool after some events is a channel after some events. -/
theorem trace (cap : Nat) (es : List Ev) : ∃ l, (exec cap es).ch = Chan.exec cap l ∧ ∀ x ∈ l, plain x := by
  have key : ∀ (es : List Ev) (s : St) (l : List Chan.Ev), s.ch = Chan.exec cap l → (∀ x ∈ l, plain x) →
      ∃ l, (s.steps es).ch = Chan.exec cap l ∧ ∀ x ∈ l, plain x := by
    intro es
    induction es with
    | nil => exact fun s l h1 h2 => ⟨l, h1, h2⟩
    | cons e es ih =>
      intro s l h1 h2
      refine ih (s.step e) (l ++ s.evs e) ?_ ?_
      · rw [step_ch, h1]; simp [Chan.exec, Chan.St.steps, List.foldl_append]
      · intro x hx
        rcases List.mem_append.1 hx with hx | hx
        · exact h2 x hx
        · exact evs_plain s e x hx
  exact key es (St.init cap) [] rfl (by simp)

theorem sound_iff (cap : Nat) (es : List Ev) :
    (exec cap es).Sound ↔ (exec cap es).ch.ub = false ∧ (exec cap es).ch.asserted = false := by
  obtain ⟨l, hl, _⟩ := trace cap es
  unfold St.Sound
  rw [hl]
  constructor
  · rintro ⟨h1, h2⟩
    refine ⟨h1, ?_⟩
    cases ha : (Chan.exec cap l).asserted with
    | false => rfl
    | true =>
      obtain ⟨w, hw⟩ := (Chan.C05_exact cap l h1).2 ha
      exact absurd hw (h2 w)
  · rintro ⟨h1, h2⟩
    refine ⟨h1, fun w hw => ?_⟩
    have := (Chan.C05_exact cap l h1).1 ⟨w, hw⟩
    rw [h2] at this; cases this

/-- Each event of the channel that a pool makes is one of these. -/
theorem steps_cases {P : Chan.St → Prop} {s : St} (h : PInv s) (hp : P s.ch)
    (hr : (∃ i, s.cur = some (.w i)) → P (s.ch.step .mkR) ∧
      P ((s.ch.step .mkR).step (.awaitR s.ch.nextR true false [])))
    (hw : (∃ i, s.cur = some (.p i)) → P (s.ch.step .mkW) ∧
      P ((s.ch.step .mkW).step (.awaitW s.ch.nextW true false [])))
    (hk : ∀ k, P (s.ch.step (.run k))) (e : Ev) : P (s.step e).ch := by
  rw [step_ch]
  unfold St.evs
  rw [if_neg (by simp [h.pl.ub])]
  split
  · rename_i i hc; exact (hr ⟨i, hc⟩).2
  · rename_i i hc
    split
    · exact hp
    · exact (hw ⟨i, hc⟩).2
  · split
    · exact hk _
    · exact hp
  · exact hp

/-! ## Limit 0 -/

theorem zero_step {c : Chan.St} (i : I0 c none) (q : Q0 c none) (hn : c.noStale) (ho : c.closed = false) (e : Chan.Ev) :
    I0 (c.step e) none ∧ Q0 (c.step e) none := by
  rcases i.step e with h | h
  · exact absurd hn h.2.1
  · refine ⟨h.1, h.2 ?_ q⟩
    split
    · simp [ho]
    · trivial

theorem zero (es : List Ev) : ∀ s, PInv s → I0 s.ch none → Q0 s.ch none →
    I0 (s.steps es).ch none ∧ Q0 (s.steps es).ch none := by
  induction es with
  | nil => exact fun s _ i q => ⟨i, q⟩
  | cons e es ih =>
    intro s h i q
    have key : I0 (s.step e).ch none ∧ Q0 (s.step e).ch none := by
      refine steps_cases (P := fun c => I0 c none ∧ Q0 c none) h ⟨i, q⟩ (fun _ => ?_) (fun _ => ?_) (fun k => ?_) e
      · have h1 := zero_step i q h.pl.noStale h.pl.op .mkR
        exact ⟨h1, zero_step h1.1 h1.2 h.pl.mkR.noStale h.pl.mkR.op _⟩
      · have h1 := zero_step i q h.pl.noStale h.pl.op .mkW
        exact ⟨h1, zero_step h1.1 h1.2 h.pl.mkW.noStale h.pl.mkW.op _⟩
      · exact zero_step i q h.pl.noStale h.pl.op _
    rcases h.step e with h1 | h1
    · rw [key.1.ub] at h1; cases h1
    · exact ih _ h1 key.1 key.2

/-! ## One worker, one producer -/

structure Pair (c : Chan.St) : Prop where
  wf : WF c none
  tk : TK c none
  j : J c none

theorem pair_step {c : Chan.St} (p : Pair c) (hn : c.noStale) (ho : c.closed = false) (e : Chan.Ev) (hs : Spsc c [e]) :
    Pair (c.step e) := by
  have hp : Prompt c [e] := by
    refine ⟨?_, trivial⟩
    split
    · simp [ho]
    · trivial
  have hj := p.j.step p.wf p.tk e hp hs (.inl hn)
  refine ⟨?_, ?_, hj⟩
  · rcases p.wf.step e with h1 | h1
    · rw [hj.ub] at h1; cases h1
    · exact h1
  · rcases p.tk.step p.wf e with h1 | h1
    · rw [hj.ub] at h1; cases h1
    · exact h1

theorem nw_step (s : St) (e : Ev) : (s.step e).nw ≤ s.nw + workers [e] ∧ (s.step e).np ≤ s.np + producers [e] := by
  unfold St.step
  split
  · simp
  · split
    · simp [workers]
    · simp [producers]
    · rename_i c _
      cases c with
      | w i => simp [St.goOn]
      | p i => simp only [St.goOn]; split <;> simp
    · simp
    · split <;> simp
    · split <;> simp
    · simp

theorem workers_cons (e : Ev) (es : List Ev) : workers (e :: es) = workers [e] + workers es := by
  simp [workers, List.countP_cons]; omega
theorem producers_cons (e : Ev) (es : List Ev) : producers (e :: es) = producers [e] + producers es := by
  simp [producers, List.countP_cons]; omega

theorem nw_steps (es : List Ev) : ∀ s : St, (s.steps es).nw ≤ s.nw + workers es ∧ (s.steps es).np ≤ s.np + producers es := by
  induction es with
  | nil => intro s; simp [St.steps, workers, producers]
  | cons e es ih =>
    intro s
    have h1 := ih (s.step e)
    have h2 := nw_step s e
    rw [workers_cons, producers_cons]
    have e1 : s.steps (e :: es) = (s.step e).steps es := rfl
    rw [e1]
    omega

theorem pair (es : List Ev) : ∀ s, PInv s → Pair s.ch → s.nw + workers es ≤ 1 → s.np + producers es ≤ 1 →
    Pair (s.steps es).ch := by
  induction es with
  | nil => exact fun s _ p _ _ => p
  | cons e es ih =>
    intro s h p hw hp
    rw [workers_cons] at hw
    rw [producers_cons] at hp
    have nr : (∃ i, s.cur = some (.w i)) → ∀ j, (s.ch.R j).status ≠ .susp := fun ⟨i, hc⟩ j hj => by
      have h1 := h.curLt _ hc
      have h2 := h.lt (.r j) (susp_made h.pl hj)
      have h3 := (h.free (.r j) hj).1
      simp only [St.started, St.own] at h1 h2 h3
      have : i = s.ownR j := by omega
      exact h3 (by rw [hc, this])
    have nwr : (∃ i, s.cur = some (.p i)) → ∀ j, (s.ch.W j).status ≠ .susp := fun ⟨i, hc⟩ j hj => by
      have h1 := h.curLt _ hc
      have h2 := h.lt (.w j) (susp_made h.pl hj)
      have h3 := (h.free (.w j) hj).1
      simp only [St.started, St.own] at h1 h2 h3
      have : i = s.ownW j := by omega
      exact h3 (by rw [hc, this])
    have key : Pair (s.step e).ch := by
      refine steps_cases (P := Pair) h p (fun hc => ?_) (fun hc => ?_) (fun k => ?_) e
      · have h1 := pair_step p h.pl.noStale h.pl.op .mkR ⟨trivial, trivial⟩
        refine ⟨h1, pair_step h1 h.pl.mkR.noStale h.pl.mkR.op _ ⟨fun j hj => ?_, trivial⟩⟩
        exact nr hc j ((Chan.mkR_stat h.pl (.r j)).1 hj)
      · have h1 := pair_step p h.pl.noStale h.pl.op .mkW ⟨trivial, trivial⟩
        refine ⟨h1, pair_step h1 h.pl.mkW.noStale h.pl.mkW.op _ ⟨fun j hj => ?_, trivial⟩⟩
        exact nwr hc j ((Chan.mkW_stat h.pl (.w j)).1 hj)
      · exact pair_step p h.pl.noStale h.pl.op _ ⟨trivial, trivial⟩
    have hn := nw_step s e
    rcases h.step e with h1 | h1
    · rw [key.j.ub] at h1; cases h1
    · exact ih _ h1 key (by omega) (by omega)

/-! ## Nobody reads, or nobody writes -/

structure NoR (c : Chan.St) : Prop where
  rq : c.rq = []
  posted : c.posted = []
  ub : c.ub = false
  ok : c.asserted = false

structure NoW (c : Chan.St) : Prop where
  buf : c.buf = []
  wq : c.wq = []
  posted : c.posted = []
  ub : c.ub = false
  ok : c.asserted = false

theorem noR_write {c : Chan.St} (h : Pl c) (n : NoR c) :
    NoR (c.step .mkW) ∧ NoR ((c.step .mkW).step (.awaitW c.nextW true false [])) := by
  have h1 : NoR (c.step .mkW) := by
    refine ⟨?_, ?_, ?_, ?_⟩ <;> simp [Chan.St.step, n.ub, n.rq, n.posted, n.ok]
  refine ⟨h1, ?_⟩
  have hf := h.fw
  have hc := h.mkW.wc
  have hcl := h.mkW.wcl
  have hd := h.mkW.wf.wfresh _ hf
  have hop := h.mkW.op
  generalize c.step .mkW = s at *
  simp only [Chan.St.step, h1.ub, Bool.false_eq_true, if_false]
  rw [Chan.awaitW_eq, if_neg (by simp [hf])]
  dsimp only
  split
  · rename_i hr
    have hl : s.buf.length ≠ s.cap := by
      simpa [Chan.St.writeReady, hop, hc] using hr
    unfold Chan.St.resumeW
    simp only [hcl, hc, hd, Bool.false_eq_true, if_false]
    unfold Chan.St.wakeReader
    split
    · exact ⟨h1.rq, h1.posted, h1.ub, by simp [h1.ok, hl]⟩
    · rename_i hq; exact absurd (hq.symm.trans h1.rq) (by simp)
  · split
    · exact ⟨h1.rq, h1.posted, h1.ub, h1.ok⟩
    · rename_i hq; exact absurd (hq.symm.trans h1.rq) (by simp)

theorem noW_read {c : Chan.St} (h : Pl c) (n : NoW c) :
    NoW (c.step .mkR) ∧ NoW ((c.step .mkR).step (.awaitR c.nextR true false [])) := by
  have h1 : NoW (c.step .mkR) := by
    refine ⟨?_, ?_, ?_, ?_, ?_⟩ <;> simp [Chan.St.step, n.ub, n.wq, n.posted, n.ok, n.buf]
  refine ⟨h1, ?_⟩
  have hf := h.fr
  have hc := h.mkR.rc
  have hop := h.mkR.op
  generalize c.step .mkR = s at *
  simp only [Chan.St.step, h1.ub, Bool.false_eq_true, if_false]
  rw [Chan.awaitR_eq, if_neg (by simp [hf])]
  dsimp only
  rw [if_neg (by simp [Chan.St.readReady, hop, hc, h1.buf])]
  split
  · exact ⟨h1.buf, h1.wq, h1.posted, h1.ub, h1.ok⟩
  · rename_i hq; exact absurd (hq.symm.trans h1.wq) (by simp)

theorem run_nothing {c : Chan.St} (h : c.posted = []) (k : Nat) : c.step (.run k) = c := by
  simp [Chan.St.step, Chan.St.run, h]

theorem noR (es : List Ev) : ∀ s, PInv s → NoR s.ch → s.nw + workers es = 0 → NoR (s.steps es).ch := by
  induction es with
  | nil => exact fun s _ n _ => n
  | cons e es ih =>
    intro s h n hw
    rw [workers_cons] at hw
    have key : NoR (s.step e).ch := by
      refine steps_cases (P := NoR) h n (fun ⟨i, hc⟩ => ?_) (fun _ => noR_write h.pl n)
        (fun k => by rw [run_nothing n.posted]; exact n) e
      have := h.curLt _ hc
      simp only [St.started] at this
      omega
    have hn := nw_step s e
    rcases h.step e with h1 | h1
    · rw [key.ub] at h1; cases h1
    · exact ih _ h1 key (by omega)

theorem noW (es : List Ev) : ∀ s, PInv s → NoW s.ch → s.np + producers es = 0 → NoW (s.steps es).ch := by
  induction es with
  | nil => exact fun s _ n _ => n
  | cons e es ih =>
    intro s h n hw
    rw [producers_cons] at hw
    have key : NoW (s.step e).ch := by
      refine steps_cases (P := NoW) h n (fun _ => noW_read h.pl n) (fun ⟨i, hc⟩ => ?_)
        (fun k => by rw [run_nothing n.posted]; exact n) e
      have := h.curLt _ hc
      simp only [St.started] at this
      omega
    have hn := nw_step s e
    rcases h.step e with h1 | h1
    · rw [key.ub] at h1; cases h1
    · exact ih _ h1 key (by omega)

theorem PInv.steps (es : List Ev) : ∀ s, PInv s → (s.steps es).ch.ub = true ∨ PInv (s.steps es) := by
  induction es with
  | nil => exact fun s h => .inr h
  | cons e es ih =>
    intro s h
    rcases h.step e with h1 | h1
    · left
      have : ∀ (es : List Ev) (s : St), s.ch.ub = true → (s.steps es).ch.ub = true := by
        intro es
        induction es with
        | nil => exact fun s h => h
        | cons e es ih => intro s h; exact ih _ (by simp [St.step, h])
      exact this es _ h1
    · exact ih _ h1

end Cobalt.Pool
