import Verif.Sig.Lemmas
/-!
# Who waits and who was resumed (lemmas for C104)
-/
namespace Cobalt.Sig

/-- What was seen agrees with the state. -/
structure Lg (s : St) : Prop where
  wait : ∀ w, Obs.wait w ∈ s.log ↔ w < s.slots.length
  emit : ∀ n, Obs.emit n ∈ s.log → n < s.emits
  free : ∀ w, w ∈ s.conn → ∀ n, Obs.got w n ∉ s.log
  gone : ∀ w, Obs.gone w ∉ s.log
  all : ∀ w, w < s.slots.length → w ∈ s.conn ∨ (∃ n, Obs.got w n ∈ s.log) ∨ Obs.dropped w ∈ s.log
  got : ∀ w n, Obs.got w n ∈ s.log → w < s.slots.length ∧ Before s.log (.wait w) (.emit n) ∧
    ∀ n', Obs.got w n' ∈ s.log → n' = n
  todo : ∀ f ∈ s.stack, ∀ w ∈ f.todo, Before s.log (.wait w) (.emit f.n)
  comp : ∀ w ∈ s.conn, ∀ n, Before s.log (.wait w) (.emit n) → ∃ f ∈ s.stack, f.n = n ∧ w ∈ f.todo

theorem Lg.init : Lg {} := by constructor <;> simp [Before]

/-- An await is still waited for in two emissions under way. -/
def Twice (w : Nat) : List Fr → Prop
  | [] => False
  | f :: fs => (w ∈ f.todo ∧ ∃ g ∈ fs, w ∈ g.todo) ∨ Twice w fs

/-- The history agrees with the state. `O`: what was overtaken. -/
structure Ov (O : Nat → Prop) (s : St) : Prop where
  twice : ∀ w ∈ s.conn, (O w ↔ Twice w s.stack)
  lt : ∀ w, O w → w < s.slots.length
  got : ∀ w n, Obs.got w n ∈ s.log → (O w ↔ ∃ m, Before s.log (.wait w) (.emit m) ∧ m < n)

theorem Lg.doAct {s : St} (h : Inv s) (l : Lg s) (i : Nat) (a : Act) : Lg (s.doAct i a) := by
  cases a with
  | hold => exact l
  | leave => exact ⟨l.1, l.2, l.3, l.4, l.5, l.6, l.7, l.8⟩
  | finish => exact ⟨l.1, l.2, l.3, l.4, l.5, l.6, l.7, l.8⟩
  | again k =>
    have hlog : (s.doAct i (.again k)).log = s.log ++ [.wait s.slots.length] := rfl
    have hlen : (s.doAct i (.again k)).slots.length = s.slots.length + 1 := by simp [St.doAct]
    have hcm : ∀ w, w ∈ (s.doAct i (.again k)).conn ↔ w ∈ s.conn ∨ w = s.slots.length := fun w => by simp [St.doAct]
    have hst : (s.doAct i (.again k)).stack = s.stack := rfl
    have hb : ∀ w n, Before (s.doAct i (.again k)).log (.wait w) (.emit n) ↔ Before s.log (.wait w) (.emit n) :=
      fun w n => by rw [hlog]; exact before_append (by simp)
    have hg : ∀ w n, Obs.got w n ∈ (s.doAct i (.again k)).log ↔ Obs.got w n ∈ s.log := fun w n => by simp [hlog]
    constructor
    · intro w
      simp only [hlog, hlen, List.mem_append, l.wait, List.mem_singleton, Obs.wait.injEq]
      omega
    · intro n
      rw [hlog]
      simp only [List.mem_append, List.mem_singleton, reduceCtorEq, or_false]
      exact l.emit n
    · intro w hm n
      rw [hg]
      rcases (hcm w).1 hm with hm | rfl
      · exact l.free w hm n
      · intro hn
        have := (l.got _ n hn).1
        omega
    · intro w
      simp [hlog, l.gone]
    · intro w hw
      rw [hlen] at hw
      simp only [hcm, hg]
      by_cases h1 : w = s.slots.length
      · exact .inl (.inr h1)
      · rcases l.all w (by omega) with h2 | h2 | h2
        · exact .inl (.inl h2)
        · exact .inr (.inl h2)
        · exact .inr (.inr (by simp [hlog, h2]))
    · intro w n hn
      rw [hg] at hn
      have := l.got w n hn
      refine ⟨by omega, (hb w n).2 this.2.1, fun n' hn' => this.2.2 n' ((hg w n').1 hn')⟩
    · intro f hf w hw
      rw [hb]
      exact l.todo f hf w hw
    · intro w hm n hbn
      rw [hb] at hbn
      rcases (hcm w).1 hm with hm | rfl
      · exact l.comp w hm n hbn
      · have := (l.wait _).1 hbn.left
        omega

theorem Lg.step {s : St} (h : Inv s) (l : Lg s) (e : Ev) (hb : ∀ a, e = .act a → s.ok (.act a) = true → a = .hold) :
    Lg (s.step e) := by
  rcases (h.shape e hb).2 with he | ⟨i, a, rfl, he, _⟩ | ⟨rfl, _, he⟩ | ⟨rfl, n, fs, hs, he⟩ | ⟨rfl, n, w, ws, fs, hs, hc, he⟩ |
    ⟨rfl, n, w, ws, fs, hs, hc, he⟩ | ⟨rfl, n, w, ws, fs, hs, he⟩ | ⟨rfl, he⟩
  · rw [he]; exact l
  · rw [he]; exact l.doAct h i a
  · rw [he]
    obtain ⟨l1, l2, l3, l4, l5, l6, l7, l8⟩ := l
    refine ⟨?_, ?_, ?_, ?_, ?_, ?_, ?_, ?_⟩
    · intro w; simp [St.emitted, l1]
    · intro n hn
      simp only [St.emitted, List.mem_append, List.mem_singleton, Obs.emit.injEq] at hn ⊢
      rcases hn with hn | rfl
      · have := l2 n hn; omega
      · omega
    · intro w hm n
      simp only [St.emitted, List.mem_append, List.mem_singleton, reduceCtorEq, or_false]
      exact l3 w hm n
    · intro w; simp [St.emitted, l4]
    · intro w hw
      rcases l5 w hw with a | ⟨n, a⟩ | a
      · exact .inl a
      · exact .inr (.inl ⟨n, by simp [St.emitted, a]⟩)
      · exact .inr (.inr (by simp [St.emitted, a]))
    · intro w n hn
      simp only [St.emitted, List.mem_append, List.mem_singleton, reduceCtorEq, or_false] at hn
      refine ⟨(l6 w n hn).1, (l6 w n hn).2.1.append _, fun n' hn' => ?_⟩
      simp only [St.emitted, List.mem_append, List.mem_singleton, reduceCtorEq, or_false] at hn'
      exact (l6 w n hn).2.2 n' hn'
    · intro f hf w hw
      rcases List.mem_cons.1 hf with rfl | hf
      · exact before_snoc.2 (.inr ⟨(l1 w).2 (h.lt w hw), rfl⟩)
      · exact (l7 f hf w hw).append _
    · intro w hm n hn
      rcases before_snoc.1 hn with hn | ⟨_, hn⟩
      · obtain ⟨f, hf, h1⟩ := l8 w hm n hn
        exact ⟨f, List.mem_cons_of_mem _ hf, h1⟩
      · simp only [Obs.emit.injEq] at hn
        subst hn
        exact ⟨_, List.mem_cons_self, rfl, hm⟩
  · rw [he]
    obtain ⟨l1, l2, l3, l4, l5, l6, l7, l8⟩ := l
    refine ⟨l1, l2, l3, l4, l5, l6, fun f hf => l7 f (by rw [hs]; simp [show f ∈ fs from hf]), fun w hm n hn => ?_⟩
    obtain ⟨f, hf, h1, h2⟩ := l8 w hm n hn
    rw [hs] at hf
    rcases List.mem_cons.1 hf with rfl | hf
    · simp at h2
    · exact ⟨f, hf, h1, h2⟩
  · rw [he]
    obtain ⟨l1, l2, l3, l4, l5, l6, l7, l8⟩ := l
    refine ⟨l1, l2, l3, l4, l5, l6, fun f hf x hx => ?_, fun x hm m hn => ?_⟩
    · rcases List.mem_cons.1 hf with rfl | hf
      · exact l7 ⟨n, w :: ws, none⟩ (by simp [hs]) x (List.mem_cons_of_mem _ hx)
      · exact l7 f (by rw [hs]; exact List.mem_cons_of_mem _ hf) x hx
    · obtain ⟨f, hf, h1, h2⟩ := l8 x hm m hn
      rw [hs] at hf
      rcases List.mem_cons.1 hf with rfl | hf
      · refine ⟨⟨n, ws, none⟩, by simp, h1, ?_⟩
        rcases List.mem_cons.1 h2 with rfl | h2
        · exact absurd hm hc
        · exact h2
      · exact ⟨f, List.mem_cons_of_mem _ hf, h1, h2⟩
  · rw [he]
    obtain ⟨l1, l2, l3, l4, l5, l6, l7, l8⟩ := l
    have her : ∀ x, x ∈ (s.called n w ws fs).conn ↔ x ∈ s.conn ∧ x ≠ w := fun x => by
      show x ∈ s.conn.erase w ↔ _
      rw [h.nd.mem_erase_iff, and_comm]
    have hlog : (s.called n w ws fs).log = s.log ++ [.got w n] := rfl
    have hbw : ∀ x m, Before (s.called n w ws fs).log (.wait x) (.emit m) ↔ Before s.log (.wait x) (.emit m) :=
      fun x m => by rw [hlog]; exact before_append (by simp)
    have hg : ∀ x m, Obs.got x m ∈ (s.called n w ws fs).log ↔ Obs.got x m ∈ s.log ∨ (x = w ∧ m = n) := fun x m => by
      simp [hlog]
    refine ⟨?_, ?_, ?_, ?_, ?_, ?_, ?_, ?_⟩
    · intro x; rw [hlog]; simpa [St.called] using l1 x
    · intro m; rw [hlog]; simpa [St.called] using l2 m
    · intro x hx m
      rw [hg]
      have := (her x).1 hx
      rintro (h1 | ⟨h1, _⟩)
      · exact l3 x this.1 m h1
      · exact this.2 h1
    · intro x; rw [hlog]; simpa using l4 x
    · intro x hx
      simp only [her, hg]
      by_cases hxw : x = w
      · exact .inr (.inl ⟨n, .inr ⟨hxw, rfl⟩⟩)
      · rcases l5 x hx with a | ⟨m, a⟩ | a
        · exact .inl ⟨a, hxw⟩
        · exact .inr (.inl ⟨m, .inl a⟩)
        · exact .inr (.inr (by simp [hlog, a]))
    · intro x m hx
      rw [hbw]
      rcases (hg x m).1 hx with h1 | ⟨rfl, rfl⟩
      · refine ⟨(l6 x m h1).1, (l6 x m h1).2.1, fun m' hm' => ?_⟩
        rcases (hg x m').1 hm' with h2 | ⟨rfl, rfl⟩
        · exact (l6 x m h1).2.2 m' h2
        · exact absurd h1 (l3 x hc m)
      · refine ⟨h.lt x hc, l7 ⟨m, x :: ws, none⟩ (by simp [hs]) x (by simp), fun m' hm' => ?_⟩
        rcases (hg x m').1 hm' with h2 | ⟨_, rfl⟩
        · exact absurd h2 (l3 x hc m')
        · rfl
    · intro f hf x hx
      rw [hbw]
      rcases List.mem_cons.1 hf with rfl | hf
      · exact l7 ⟨n, w :: ws, none⟩ (by simp [hs]) x (List.mem_cons_of_mem _ hx)
      · exact l7 f (by rw [hs]; exact List.mem_cons_of_mem _ hf) x hx
    · intro x hm m hn
      rw [hbw] at hn
      have hm := (her x).1 hm
      obtain ⟨f, hf, h1, h2⟩ := l8 x hm.1 m hn
      rw [hs] at hf
      rcases List.mem_cons.1 hf with rfl | hf
      · refine ⟨⟨n, ws, some w⟩, List.mem_cons_self, h1, ?_⟩
        rcases List.mem_cons.1 h2 with rfl | h2
        · exact absurd rfl hm.2
        · exact h2
      · exact ⟨f, List.mem_cons_of_mem _ hf, h1, h2⟩
  · rw [he]
    obtain ⟨l1, l2, l3, l4, l5, l6, l7, l8⟩ := l
    refine ⟨l1, l2, l3, l4, l5, l6, fun f hf x hx => ?_, fun x hm m hn => ?_⟩
    · rcases List.mem_cons.1 hf with rfl | hf
      · exact l7 ⟨n, ws, some w⟩ (by simp [hs]) x hx
      · exact l7 f (by rw [hs]; exact List.mem_cons_of_mem _ hf) x hx
    · obtain ⟨f, hf, h1, h2⟩ := l8 x hm m hn
      rw [hs] at hf
      rcases List.mem_cons.1 hf with rfl | hf
      · exact ⟨⟨n, ws, none⟩, List.mem_cons_self, h1, h2⟩
      · exact ⟨f, List.mem_cons_of_mem _ hf, h1, h2⟩
  · rw [he]
    obtain ⟨l1, l2, l3, l4, l5, l6, l7, l8⟩ := l
    have hlog : s.killed.log = s.log ++ (.killed :: s.conn.map .dropped) := rfl
    refine ⟨?_, ?_, ?_, ?_, ?_, ?_, ?_, ?_⟩
    · intro x; rw [hlog]; simpa [St.killed] using l1 x
    · intro m; rw [hlog]; simpa [St.killed] using l2 m
    · intro x hx; simp [St.killed] at hx
    · intro x; rw [hlog]; simpa using l4 x
    · intro x hx
      rcases l5 x hx with a | ⟨m, a⟩ | a
      · exact .inr (.inr (by simp [hlog, a]))
      · exact .inr (.inl ⟨m, by simp [hlog, a]⟩)
      · exact .inr (.inr (by simp [hlog, a]))
    · intro x m hx
      have hg : ∀ m, Obs.got x m ∈ s.killed.log ↔ Obs.got x m ∈ s.log := fun m => by simp [hlog]
      rw [hg] at hx
      exact ⟨(l6 x m hx).1, (l6 x m hx).2.1.append _, fun m' hm' => (l6 x m hx).2.2 m' ((hg m').1 hm')⟩
    · intro f hf x hx
      exact (l7 f hf x hx).append _
    · intro x hx; simp [St.killed] at hx

theorem Twice.of_lt {w k : Nat} {fs : List Fr} (h : Twice w fs) (hk : ∀ f ∈ fs, ∀ w ∈ f.todo, w < k) : w < k := by
  induction fs with
  | nil => exact h.elim
  | cons f fs ih =>
    rcases h with ⟨h, _⟩ | h
    · exact hk f (by simp) w h
    · exact ih h fun g hg => hk g (by simp [hg])

theorem Ov.doAct {O : Nat → Prop} {s : St} (h : Inv s) (l : Lg s) (v : Ov O s) (i : Nat) (a : Act) : Ov O (s.doAct i a) := by
  cases a with
  | hold => exact v
  | leave => exact ⟨v.1, v.2, v.3⟩
  | finish => exact ⟨v.1, v.2, v.3⟩
  | again k =>
    have hlog : (s.doAct i (.again k)).log = s.log ++ [.wait s.slots.length] := rfl
    have hlen : (s.doAct i (.again k)).slots.length = s.slots.length + 1 := by simp [St.doAct]
    have hcm : ∀ w, w ∈ (s.doAct i (.again k)).conn ↔ w ∈ s.conn ∨ w = s.slots.length := fun w => by simp [St.doAct]
    have hb : ∀ w n, Before (s.doAct i (.again k)).log (.wait w) (.emit n) ↔ Before s.log (.wait w) (.emit n) :=
      fun w n => by rw [hlog]; exact before_append (by simp)
    refine ⟨fun w hm => ?_, fun w hw => ?_, fun w n hn => ?_⟩
    · rcases (hcm w).1 hm with hm | rfl
      · exact v.twice w hm
      · constructor
        · intro ho
          have := v.lt _ ho
          omega
        · intro ht
          have := ht.of_lt (k := s.slots.length) fun f hf => (h.todo f hf).2
          omega
    · have := v.lt w hw
      omega
    · simp only [hb]
      exact v.got w n (by simpa [hlog] using hn)

theorem Ov.step {O : Nat → Prop} {s : St} (h : Inv s) (l : Lg s) (v : Ov O s) (e : Ev)
    (hb : ∀ a, e = .act a → s.ok (.act a) = true → a = .hold) :
    Ov (fun w => O w ∨ (e = .emit ∧ s.ok .emit = true ∧ w ∈ s.conn ∧ ∃ f ∈ s.stack, w ∈ f.todo)) (s.step e) := by
  by_cases hem : e = .emit ∧ s.ok .emit = true
  · obtain ⟨rfl, hok⟩ := hem
    rw [(h.emit hok).1]
    refine ⟨fun w hm => ?_, fun w hw => ?_, fun w n hn => ?_⟩
    · rw [v.twice w hm]
      show _ ↔ (w ∈ s.conn ∧ _) ∨ Twice w s.stack
      have hm : w ∈ s.conn := hm
      simp [hok, hm, or_comm]
    · rcases hw with hw | ⟨_, _, hw, _⟩
      · exact v.lt w hw
      · exact h.lt w hw
    · have hn : Obs.got w n ∈ s.log := by simpa [St.emitted] using hn
      have h1 := v.got w n hn
      have h2 := l.got w n hn
      have h3 := l.emit n h2.2.1.right
      have h4 : w ∉ s.conn := fun hc => l.free w hc n hn
      simp only [h4, false_and, and_false, or_false, h1]
      refine exists_congr fun m => and_congr_left fun hmn => ?_
      show _ ↔ Before (s.log ++ [.emit s.emits]) _ _
      rw [before_snoc]
      refine ⟨.inl, fun hx => hx.resolve_right ?_⟩
      rintro ⟨_, hx⟩
      simp only [Obs.emit.injEq] at hx
      omega
  · have hO : (fun w => O w ∨ (e = .emit ∧ s.ok .emit = true ∧ w ∈ s.conn ∧ ∃ f ∈ s.stack, w ∈ f.todo)) = O := by
      funext w
      apply propext
      exact ⟨fun hx => hx.resolve_right fun ⟨a, b, _⟩ => hem ⟨a, b⟩, .inl⟩
    rw [hO]
    rcases (h.shape e hb).2 with he | ⟨i, a, rfl, he, _⟩ | ⟨rfl, hok, he⟩ | ⟨rfl, n, fs, hs, he⟩ |
      ⟨rfl, n, w, ws, fs, hs, hc, he⟩ | ⟨rfl, n, w, ws, fs, hs, hc, he⟩ | ⟨rfl, n, w, ws, fs, hs, he⟩ | ⟨rfl, he⟩
    · rw [he]; exact v
    · rw [he]; exact v.doAct h l i a
    · exact absurd ⟨rfl, hok⟩ hem
    · rw [he]
      refine ⟨fun w hm => ?_, v.lt, v.got⟩
      rw [v.twice w hm, hs]
      simp [Twice]
    · rw [he]
      refine ⟨fun x hm => ?_, v.lt, v.got⟩
      rw [v.twice x hm, hs]
      have : x ≠ w := fun h => hc (h ▸ hm)
      simp [Twice, this]
    · rw [he]
      have her : ∀ x, x ∈ (s.called n w ws fs).conn ↔ x ∈ s.conn ∧ x ≠ w := fun x => by
        show x ∈ s.conn.erase w ↔ _
        rw [h.nd.mem_erase_iff, and_comm]
      have hlog : (s.called n w ws fs).log = s.log ++ [.got w n] := rfl
      have hbw : ∀ x m, Before (s.called n w ws fs).log (.wait x) (.emit m) ↔ Before s.log (.wait x) (.emit m) :=
        fun x m => by rw [hlog]; exact before_append (by simp)
      refine ⟨fun x hm => ?_, v.lt, fun x m hx => ?_⟩
      · have hm := (her x).1 hm
        rw [v.twice x hm.1, hs]
        simp [Twice, hm.2, St.called]
      · simp only [hbw]
        rw [hlog] at hx
        simp only [List.mem_append, List.mem_singleton, Obs.got.injEq] at hx
        rcases hx with hx | ⟨rfl, rfl⟩
        · exact v.got x m hx
        · rw [v.twice x hc]
          have hnum := h.num
          rw [hs, List.pairwise_cons] at hnum
          constructor
          · intro ht
            rw [hs] at ht
            have key : ∀ gs, (∀ g ∈ gs, g ∈ fs) → Twice x gs → ∃ g ∈ fs, x ∈ g.todo := by
              intro gs
              induction gs with
              | nil => intro _ h; exact h.elim
              | cons g gs ih =>
                rintro hg (⟨h1, _⟩ | h1)
                · exact ⟨g, hg g (by simp), h1⟩
                · exact ih (fun g' hg' => hg g' (by simp [hg'])) h1
            have : ∃ g ∈ fs, x ∈ g.todo := by
              rcases ht with ⟨_, ht⟩ | ht
              · exact ht
              · exact key fs (fun _ h => h) ht
            obtain ⟨g, hg, hx⟩ := this
            exact ⟨g.n, l.todo g (by simp [hs, hg]) x hx, hnum.1 g hg⟩
          · rintro ⟨k, hk, hkm⟩
            obtain ⟨f, hf, h1, h2⟩ := l.comp x hc k hk
            rw [hs] at hf ⊢
            rcases List.mem_cons.1 hf with rfl | hf
            · dsimp only at h1
              omega
            · exact .inl ⟨by simp, f, hf, h2⟩
    · rw [he]
      refine ⟨fun x hm => ?_, v.lt, v.got⟩
      rw [v.twice x hm, hs]
      simp [Twice, St.held]
    · rw [he]
      have hlog : s.killed.log = s.log ++ (.killed :: s.conn.map .dropped) := rfl
      refine ⟨fun x hm => by simp [St.killed] at hm, v.lt, fun x m hx => ?_⟩
      rw [hlog] at hx ⊢
      have hx : Obs.got x m ∈ s.log := by simpa using hx
      have hbw : ∀ k, Before (s.log ++ (.killed :: s.conn.map .dropped)) (.wait x) (.emit k) ↔
          Before s.log (.wait x) (.emit k) := fun k => before_append (by simp)
      simp only [hbw]
      exact v.got x m hx

theorem beyond_snoc {es : List Ev} {e : Ev} :
    Beyond (es ++ [e]) ↔ Beyond es ∨ ∃ a, e = .act a ∧ (exec es).ok (.act a) = true ∧ a ≠ .hold := by
  constructor
  · rintro ⟨p, a, r, h, h1, h2⟩
    rcases List.eq_nil_or_concat r with rfl | ⟨r', x, rfl⟩
    · obtain ⟨hp, he⟩ := List.append_inj' h rfl
      subst hp
      simp only [List.cons.injEq, and_true] at he
      exact .inr ⟨a, he, h1, h2⟩
    · left
      rw [List.concat_eq_append, ← List.cons_append, ← List.append_assoc] at h
      obtain ⟨h, _⟩ := List.append_inj' h rfl
      exact ⟨p, a, r', h, h1, h2⟩
  · rintro (⟨p, a, r, rfl, h1, h2⟩ | ⟨a, rfl, h1, h2⟩)
    · exact ⟨p, a, r ++ [e], by simp, h1, h2⟩
    · exact ⟨es, a, [], rfl, h1, h2⟩

theorem overtaken_snoc {es : List Ev} {e : Ev} {w : Nat} :
    Overtaken (es ++ [e]) w ↔ Overtaken es w ∨
      (e = .emit ∧ (exec es).ok .emit = true ∧ w ∈ (exec es).conn ∧ ∃ f ∈ (exec es).stack, w ∈ f.todo) := by
  constructor
  · rintro ⟨p, r, h, h1⟩
    rcases List.eq_nil_or_concat r with rfl | ⟨r', x, rfl⟩
    · obtain ⟨hp, he⟩ := List.append_inj' h rfl
      subst hp
      simp only [List.cons.injEq, and_true] at he
      exact .inr ⟨he, h1⟩
    · left
      rw [List.concat_eq_append, ← List.cons_append, ← List.append_assoc] at h
      obtain ⟨h, _⟩ := List.append_inj' h rfl
      exact ⟨p, r', h, h1⟩
  · rintro (⟨p, r, rfl, h1⟩ | ⟨rfl, h1⟩)
    · exact ⟨p, r ++ [e], by simp, h1⟩
    · exact ⟨es, [], rfl, h1⟩

/-- Everything holds until a coroutine goes beyond its expression, and something is wrong from then on. -/
theorem reach (es : List Ev) :
    (¬ Beyond es ∧ Inv (exec es) ∧ Lg (exec es) ∧ Ov (Overtaken es) (exec es)) ∨
    (Beyond es ∧ ((exec es).ub = true ∨ ∃ w, Obs.gone w ∈ (exec es).log)) := by
  rw [← List.reverse_reverse es]
  induction es.reverse with
  | nil =>
    refine .inl ⟨?_, Inv.init, Lg.init, ?_⟩
    · rintro ⟨p, a, r, h, _⟩
      simp at h
    · have : ∀ w, ¬ Overtaken [] w := by
        rintro w ⟨p, r, h, _⟩
        simp at h
      exact ⟨fun w hm => by simp [exec] at hm, fun w hw => absurd hw (this w), fun w n hn => by simp [exec] at hn⟩
  | cons e l ih =>
    rw [List.reverse_cons]
    rcases ih with ⟨h1, h2, h3, h4⟩ | ⟨h1, h2⟩
    · by_cases hb : ∃ a, e = .act a ∧ (exec l.reverse).ok (.act a) = true ∧ a ≠ .hold
      · refine .inr ⟨beyond_snoc.2 (.inr hb), ?_⟩
        obtain ⟨a, rfl, h5, h6⟩ := hb
        rw [exec_snoc]
        exact h2.beyond h5 h6
      · have hb' : ∀ a, e = .act a → (exec l.reverse).ok (.act a) = true → a = .hold := by
          intro a he ho
          exact Classical.byContradiction fun hn => hb ⟨a, he, ho, hn⟩
        refine .inl ⟨fun h => (beyond_snoc.1 h).elim h1 hb, ?_, ?_, ?_⟩
        · rw [exec_snoc]; exact (h2.shape e hb').1
        · rw [exec_snoc]; exact h3.step h2 e hb'
        · rw [exec_snoc]
          have := h4.step h2 h3 e hb'
          have heq : Overtaken (l.reverse ++ [e]) = fun w => Overtaken l.reverse w ∨ (e = .emit ∧
              (exec l.reverse).ok .emit = true ∧ w ∈ (exec l.reverse).conn ∧ ∃ f ∈ (exec l.reverse).stack, w ∈ f.todo) :=
            funext fun w => propext overtaken_snoc
          rw [heq]
          exact this
    · refine .inr ⟨beyond_snoc.2 (.inl h1), ?_⟩
      rw [exec_snoc]
      exact step_bad e h2

end Cobalt.Sig
