import Verif.Net.Link
import Verif.Net.Spec
/-! Helper: the invariant of a network. -/
namespace Cobalt.Net
open Chan (CI Set' Plain CK delivered endedR endedW startsW resultOf newOf upd)

/-! ## Histories -/

theorem done_snoc (f : List Res → Act) (h : List Res) (x : Res) : done f (h ++ [x]) = done f h ++ [f h] := by
  unfold done
  rw [List.length_append, List.length_singleton, List.range_succ, List.map_append]
  congr 1
  · refine List.map_congr_left fun i hi => ?_
    rw [List.mem_range] at hi
    rw [List.take_append_of_le_length (by omega)]
  · simp

theorem received_snoc (f : List Res → Act) (c : Nat) (h : List Res) (x : Res) :
    received f c (h ++ [x]) = received f c h ++ (if f h = .read c then [x] else []) := by
  unfold received
  rw [List.length_append, List.length_singleton, List.range_succ, List.filterMap_append]
  congr 1
  · refine List.filterMap_congr fun i hi => ?_
    rw [List.mem_range] at hi
    rw [List.take_append_of_le_length (by omega), List.getElem?_append_left hi]
  · simp [List.filterMap_cons]
    split <;> simp_all

/-- All values written to a channel. -/
def wrote (c : Nat) (as : List Act) : List Nat :=
  as.filterMap fun | .write c' v => if c' = c then some v else none | _ => none

/-- The number of reads of a channel. -/
def nreads (c : Nat) (as : List Act) : Nat := as.countP fun a => decide (a = .read c)

theorem sent_snoc (c : Nat) (as : List Act) (a : Act) :
    sent c (as ++ [a]) = sent c as ++ (match a with
      | .write c' v => if c' = c ∧ Act.close c ∉ as then [v] else []
      | _ => []) := by
  induction as with
  | nil => cases a <;> simp [sent]
  | cons b bs ih =>
    cases b with
    | read c' => simp only [List.cons_append, sent, ih]; cases a <;> simp
    | stop => simp only [List.cons_append, sent, ih]; cases a <;> simp
    | write c' v =>
      simp only [List.cons_append, sent, ih]
      split <;> (cases a <;> simp)
    | close c' =>
      simp only [List.cons_append, sent, ih]
      by_cases hc : c' = c
      · subst hc; simp; cases a <;> simp
      · simp only [hc, if_false]
        cases a <;> simp [Ne.symm hc]

theorem wrote_snoc (c : Nat) (as : List Act) (a : Act) :
    wrote c (as ++ [a]) = wrote c as ++ (match a with
      | .write c' v => if c' = c then [v] else []
      | _ => []) := by
  unfold wrote
  rw [List.filterMap_append]
  congr 1
  cases a <;> simp [List.filterMap_cons]
  split <;> simp_all

theorem nreads_snoc (c : Nat) (as : List Act) (a : Act) :
    nreads c (as ++ [a]) = nreads c as + (if a = .read c then 1 else 0) := by
  unfold nreads
  rw [List.countP_append]
  congr 1
  simp [List.countP_cons]

theorem snoc_ind {α : Type} {P : List α → Prop} (h0 : P []) (h1 : ∀ l a, P l → P (l ++ [a])) (l : List α) : P l := by
  have key : ∀ l : List α, P l.reverse := by
    intro l
    induction l with
    | nil => exact h0
    | cons a l ih => rw [List.reverse_cons]; exact h1 _ _ ih
  rw [← List.reverse_reverse l]; exact key _

theorem received_length (f : List Res → Act) (c : Nat) (h : List Res) : (received f c h).length = nreads c (done f h) := by
  induction h using snoc_ind with
  | h0 => rfl
  | h1 h x ih =>
    rw [received_snoc, done_snoc, nreads_snoc, List.length_append, ih]
    split <;> rfl

theorem sent_wrote (c : Nat) (as : List Act) : sent c as <+: wrote c as := by
  induction as with
  | nil => exact List.prefix_refl _
  | cons b bs ih =>
    cases b with
    | read c' => simpa [sent, wrote, List.filterMap_cons] using ih
    | stop => simpa [sent, wrote, List.filterMap_cons] using ih
    | write c' v =>
      by_cases hc : c' = c
      · simpa [sent, wrote, List.filterMap_cons, hc] using ih
      · simpa [sent, wrote, List.filterMap_cons, hc] using ih
    | close c' =>
      by_cases hc : c' = c
      · simp [sent, hc]
      · simpa [sent, wrote, List.filterMap_cons, hc] using ih

/-- What has to come of something. -/
def okAt (f : List Res → Act) (h : List Res) (x : Res) : Prop :=
  match f h with
  | .read _ => True
  | .write c _ => (Act.close c ∈ done f h → x = .broken) ∧ (Act.close c ∉ done f h → x = .ok)
  | .close _ => x = .ok
  | .stop => False

/-- All of it is so. -/
def Good (f : List Res → Act) (h : List Res) : Prop := ∀ l x, l ++ [x] <+: h → okAt f l x

theorem Good.nil (f : List Res → Act) : Good f [] := by
  intro l x h
  have := h.length_le
  simp at this

theorem Good.snoc {f : List Res → Act} {h : List Res} (g : Good f h) {x : Res} (hx : okAt f h x) : Good f (h ++ [x]) := by
  intro l y hp
  rw [List.prefix_concat_iff] at hp
  rcases hp with hp | hp
  · have := List.append_inj' hp rfl
    obtain ⟨rfl, h2⟩ := this
    cases h2; exact hx
  · exact g l y hp

/-! ## The network -/

/-- What a coroutine has done or is doing. -/
def begun (f : List Res → Act) (a : At) (h : List Res) : List Act := if a = .idle then done f h else done f h ++ [f h]

def started (N : Prog) (s : St) (p : Nat) : List Act := begun (N.act p) (s.pos p) (s.hist p)

def LoAt (N : Prog) (s : St) (c : Nat) : Prop :=
  Lo (s.ch c) (sent c (started N s (N.wr c))).length (s.vals c) (received (N.act (N.rd c)) c (s.hist (N.rd c)))
    ((s.pos (N.rd c)).rdOn c) ((s.pos (N.wr c)).wrOn c)

def LiAt (N : Prog) (s : St) (c : Nat) : Prop :=
  Li (s.ch c) (sent c (started N s (N.wr c))).length (s.vals c) (received (N.act (N.rd c)) c (s.hist (N.rd c)))
    ((s.pos (N.rd c)).rdOn c) ((s.pos (N.wr c)).wrOn c)

structure Base (N : Prog) (s : St) : Prop where
  vals : ∀ c, s.vals c = wrote c (started N s (N.wr c))
  shut : ∀ c, (s.ch c).closed = true ↔ Act.close c ∈ started N s (N.wr c)
  atR : ∀ p c i, s.pos p = .reading c i → N.act p (s.hist p) = .read c
  atW : ∀ p c j, s.pos p = .writing c j → ∃ v, N.act p (s.hist p) = .write c v
  good : ∀ p, Good (N.act p) (s.hist p)

structure NI (N : Prog) (s : St) : Prop extends Base N s where
  link : ∀ c, LiAt N s c

/-- Something has just happened to channel `c`. -/
structure NL (N : Prog) (c : Nat) (s : St) : Prop extends Base N s where
  link : ∀ c', c' ≠ c → LiAt N s c'
  loose : LoAt N s c

theorem rdOn_some {c i : Nat} {a : At} (h : a.rdOn c = some i) : a = .reading c i := by
  cases a with
  | reading c' i' =>
    simp only [At.rdOn] at h
    split at h
    · cases h; subst_vars; rfl
    · cases h
  | _ => cases h

theorem wrOn_some {c i : Nat} {a : At} (h : a.wrOn c = some i) : a = .writing c i := by
  cases a with
  | writing c' i' =>
    simp only [At.wrOn] at h
    split at h
    · cases h; subst_vars; rfl
    · cases h
  | _ => cases h

theorem upd_self {α : Type} (f : Nat → α) (i : Nat) (x : α) : upd f i x i = x := by simp [upd]
theorem upd_ne {α : Type} (f : Nat → α) {i j : Nat} (x : α) (h : j ≠ i) : upd f i x j = f j := by simp [upd, h]

/-- An operation of coroutine `p` has ended. -/
def St.ends (s : St) (c p : Nat) (k : Chan.St) (x : Res) : St :=
  { s with ch := upd s.ch c k, hist := upd s.hist p (s.hist p ++ [x]), pos := upd s.pos p .idle }

theorem started_ends (N : Prog) (s : St) (c p : Nat) (k : Chan.St) (x : Res) (hp : s.pos p ≠ .idle) (q : Nat) :
    started N (s.ends c p k x) q = started N s q := by
  unfold started St.ends
  dsimp only
  by_cases hq : q = p
  · subst hq
    rw [upd_self, upd_self]
    unfold begun
    rw [if_pos rfl, if_neg hp, done_snoc]
  · rw [upd_ne _ _ hq, upd_ne _ _ hq]

theorem received_ends (N : Prog) (s : St) (c p : Nat) (k : Chan.St) (x : Res) (c' q : Nat) :
    received (N.act q) c' ((s.ends c p k x).hist q) =
      received (N.act q) c' (s.hist q) ++ (if q = p ∧ N.act p (s.hist p) = .read c' then [x] else []) := by
  unfold St.ends
  dsimp only
  by_cases hq : q = p
  · subst hq
    rw [upd_self, received_snoc]
    simp
  · rw [upd_ne _ _ hq]; simp [hq]

theorem Base.ends {N : Prog} {s : St} (b : Base N s) {c p : Nat} {k : Chan.St} {x : Res} (hp : s.pos p ≠ .idle)
    (hc : k.closed = (s.ch c).closed) (hx : okAt (N.act p) (s.hist p) x) : Base N (s.ends c p k x) := by
  refine ⟨fun c' => ?_, fun c' => ?_, fun q c' i hq => ?_, fun q c' i hq => ?_, fun q => ?_⟩
  · rw [started_ends N s c p k x hp]; exact b.vals c'
  · rw [started_ends N s c p k x hp, ← b.shut c']
    simp only [St.ends]
    by_cases h : c' = c
    · subst h; rw [upd_self, hc]
    · rw [upd_ne _ _ h]
  all_goals simp only [St.ends] at *
  · by_cases h : q = p
    · subst h; rw [upd_self] at hq; cases hq
    · rw [upd_ne _ _ h] at hq ⊢; exact b.atR q c' i hq
  · by_cases h : q = p
    · subst h; rw [upd_self] at hq; cases hq
    · rw [upd_ne _ _ h] at hq ⊢; exact b.atW q c' i hq
  · by_cases h : q = p
    · subst h; rw [upd_self]; exact (b.good q).snoc hx
    · rw [upd_ne _ _ h]; exact b.good q

/-- Other channels do not notice. -/
theorem LiAt.ends {N : Prog} {s : St} {c p : Nat} {k : Chan.St} {x : Res} (hp : s.pos p ≠ .idle)
    (hr : ∀ c', c' ≠ c → (s.pos p).rdOn c' = none) (hw : ∀ c', c' ≠ c → (s.pos p).wrOn c' = none)
    (ha : ∀ c', c' ≠ c → N.act p (s.hist p) ≠ .read c') {c' : Nat} (hc : c' ≠ c) (l : LiAt N s c') :
    LiAt N (s.ends c p k x) c' := by
  unfold LiAt
  rw [started_ends N s c p k x hp, received_ends, if_neg (fun h => ha c' hc h.2), List.append_nil]
  have e1 : (s.ends c p k x).ch c' = s.ch c' := upd_ne _ _ hc
  have e2 : ((s.ends c p k x).pos (N.rd c')).rdOn c' = (s.pos (N.rd c')).rdOn c' := by
    simp only [St.ends]
    by_cases h : N.rd c' = p
    · rw [h, upd_self, hr c' hc]; rfl
    · rw [upd_ne _ _ h]
  have e3 : ((s.ends c p k x).pos (N.wr c')).wrOn c' = (s.pos (N.wr c')).wrOn c' := by
    simp only [St.ends]
    by_cases h : N.wr c' = p
    · rw [h, upd_self, hw c' hc]; rfl
    · rw [upd_ne _ _ h]
  rw [e1, e2, e3]
  exact l

theorem NL.settleR {N : Prog} {c : Nat} {s : St} (l : NL N c s) :
    NL N c (s.settleR N c) ∧
      ∀ i, ((s.settleR N c).pos (N.rd c)).rdOn c = some i → i ∉ endedR ((s.settleR N c).ch c).log := by
  unfold St.settleR
  split
  · rename_i i hi
    have hpos := rdOn_some hi
    split
    · rename_i x hx
      have hne : s.pos (N.rd c) ≠ .idle := by rw [hpos]; simp
      have hact := l.atR _ _ _ hpos
      have lo := l.loose
      unfold LoAt at lo
      rw [hi] at lo
      have ld := lo.dropR hx
      refine ⟨⟨?_, ?_, ?_⟩, ?_⟩
      · exact Base.ends l.toBase hne (CK.step_dropR _ _).closed (by simp [okAt, hact])
      · intro c' hc
        refine LiAt.ends hne ?_ ?_ ?_ hc (l.link c' hc)
        · intro c' hc; rw [hpos]; simp [At.rdOn, Ne.symm hc]
        · intro c' _; rw [hpos]; rfl
        · intro c' hc; rw [hact]; simp [Ne.symm hc]
      · show LoAt N (s.ends c (N.rd c) _ _) c
        unfold LoAt
        rw [started_ends N s _ _ _ _ hne, received_ends, if_pos ⟨rfl, hact⟩]
        have e2 : ((s.ends c (N.rd c) ((s.ch c).step (.dropR i)) (ofR (s.vals c) x)).pos (N.rd c)).rdOn c = none := by
          simp only [St.ends]; rw [upd_self]; rfl
        have e3 : ((s.ends c (N.rd c) ((s.ch c).step (.dropR i)) (ofR (s.vals c) x)).pos (N.wr c)).wrOn c =
            (s.pos (N.wr c)).wrOn c := by
          simp only [St.ends]
          by_cases h : N.wr c = N.rd c
          · rw [h, upd_self, hpos]; rfl
          · rw [upd_ne _ _ h]
        rw [e2, e3]
        simp only [St.ends]
        rw [upd_self]
        exact ld
      · intro j hj
        dsimp only at hj
        rw [upd_self] at hj; cases hj
    · rename_i hx
      refine ⟨l, fun j hj => ?_⟩
      rw [hi] at hj; cases hj
      exact Chan.resultOf_none.1 hx
  · rename_i hn
    refine ⟨l, fun j hj => ?_⟩
    rw [hn] at hj; cases hj

theorem sent_shut (c : Nat) (as : List Act) : (sent c as).length = (wrote c as).length ∨ Act.close c ∈ as := by
  induction as using snoc_ind with
  | h0 => left; rfl
  | h1 as a ih =>
    rcases ih with h | h
    · by_cases hc : Act.close c ∈ as
      · right; simp [hc]
      · left
        rw [sent_snoc, wrote_snoc, List.length_append, List.length_append, h]
        cases a <;> simp [hc]
    · right; simp [h]

theorem NL.settleW {N : Prog} {c : Nat} {s : St} (l : NL N c s)
    (hq : ∀ i, (s.pos (N.rd c)).rdOn c = some i → i ∉ endedR (s.ch c).log) : NI N (s.settleW N c) := by
  unfold St.settleW
  split
  · rename_i j hj
    have hpos := wrOn_some hj
    obtain ⟨v, hact⟩ := l.atW _ _ _ hpos
    have lo := l.loose
    unfold LoAt at lo
    rw [hj] at lo
    split
    · rename_i x hx
      have hne : s.pos (N.wr c) ≠ .idle := by rw [hpos]; simp
      obtain ⟨ld, hlog, hxx⟩ := lo.dropW hx
      have hstart : started N s (N.wr c) =
          done (N.act (N.wr c)) (s.hist (N.wr c)) ++ [.write c v] := by
        unfold started begun; rw [if_neg hne, hact]
      have hok : okAt (N.act (N.wr c)) (s.hist (N.wr c)) (ofW x) := by
        unfold okAt
        rw [hact]
        dsimp only
        have hv := congrArg List.length (l.vals c)
        rw [lo.len, ← lo.last j rfl, hstart, wrote_snoc] at hv
        simp only [if_true, List.length_append, List.length_singleton] at hv
        have hs : (sent c (started N s (N.wr c))).length =
            (sent c (done (N.act (N.wr c)) (s.hist (N.wr c)))).length +
              (if Act.close c ∉ done (N.act (N.wr c)) (s.hist (N.wr c)) then 1 else 0) := by
          rw [hstart, sent_snoc]
          dsimp only
          rw [List.length_append]
          split <;> split <;> simp_all
        have hle := (sent_wrote c (done (N.act (N.wr c)) (s.hist (N.wr c)))).length_le
        have hsh := sent_shut c (done (N.act (N.wr c)) (s.hist (N.wr c)))
        refine ⟨fun h => ?_, fun h => ?_⟩
        · rcases hxx with ⟨-, h2⟩ | ⟨h1, -⟩
          · rw [hs, if_neg (by simpa using h)] at h2; omega
          · rw [h1]; rfl
        · rcases hxx with ⟨h1, -⟩ | ⟨-, h2⟩
          · rw [h1]; rfl
          · rw [hs, if_pos h] at h2
            have := hsh.resolve_right h
            omega
      refine ⟨?_, ?_⟩
      · exact Base.ends l.toBase hne (CK.step_dropW _ _).closed hok
      · intro c'
        by_cases hc : c' = c
        · subst hc
          show LiAt N (s.ends c' (N.wr c') _ _) c'
          unfold LiAt
          rw [started_ends N s _ _ _ _ hne, received_ends, if_neg (by rw [hact]; simp), List.append_nil]
          have e2 : ((s.ends c' (N.wr c') ((s.ch c').step (.dropW j)) (ofW x)).pos (N.wr c')).wrOn c' = none := by
            simp only [St.ends]; rw [upd_self]; rfl
          have e3 : ((s.ends c' (N.wr c') ((s.ch c').step (.dropW j)) (ofW x)).pos (N.rd c')).rdOn c' =
              (s.pos (N.rd c')).rdOn c' := by
            simp only [St.ends]
            by_cases h : N.rd c' = N.wr c'
            · rw [h, upd_self, hpos]; rfl
            · rw [upd_ne _ _ h]
          rw [e2, e3]
          simp only [St.ends]
          rw [upd_self]
          exact ⟨ld, ⟨by rw [hlog]; exact hq, by simp⟩⟩
        · refine LiAt.ends hne ?_ ?_ ?_ hc (l.link c' hc)
          · intro c' _; rw [hpos]; rfl
          · intro c' hc; rw [hpos]; simp [At.wrOn, Ne.symm hc]
          · intro c' hc; rw [hact]; simp
    · rename_i hx
      refine ⟨l.toBase, fun c' => ?_⟩
      by_cases hc : c' = c
      · subst hc
        refine ⟨l.loose, ⟨hq, fun k hk => ?_⟩⟩
        rw [hj] at hk; cases hk
        exact Pipe.resultOfW_none.1 hx
      · exact l.link c' hc
  · rename_i hn
    refine ⟨l.toBase, fun c' => ?_⟩
    by_cases hc : c' = c
    · subst hc
      refine ⟨l.loose, ⟨hq, fun k hk => ?_⟩⟩
      rw [hn] at hk; cases hk
    · exact l.link c' hc

/-- After something has happened to a channel, its coroutines go on. -/
theorem NL.settle {N : Prog} {c : Nat} {s : St} (l : NL N c s) :
    NI N ((s.settleR N c).settleW N c) := by
  obtain ⟨h1, h2⟩ := l.settleR
  exact h1.settleW h2

end Cobalt.Net
