import Verif.Net.Plain
import Verif.Net.Model
/-! Helper: a channel of a network. -/
namespace Cobalt.Net
open Chan (CI Set' Plain CK delivered endedR endedW startsW resultOf newOf)

/-- What the read has just obtained. -/
def newly (r : Option Nat) (log : List Chan.Obs) (vals : List Nat) : List Res :=
  match r with
  | some i => (match resultOf log i with | some x => [ofR vals x] | none => [])
  | none => []

/-- The values the reads deliver. -/
def vmap (vals ws : List Nat) : List Res := ws.map fun w => .val (vals.getD w 0)

/-- A channel with `n` writes begun while it was open, `vals` the values of all writes, `G` what came of the reads
so far, `r` and `w` the read and the write somebody waits for. The coroutines have not gone on yet. -/
structure Lo (c : Chan.St) (n : Nat) (vals : List Nat) (G : List Res) (r w : Option Nat) : Prop where
  ci : CI c r w
  fine : Plain c
  len : vals.length = c.nextW
  nle : n ≤ c.nextW
  op : c.closed = false → n = c.nextW
  okW : ∀ j, j < n → Chan.Obs.doneW j .ok ∈ c.log ∨ w = some j
  cf : ∀ j, j < c.nextW → ((c.W j).closedF = true ↔ n ≤ j)
  cls : c.closed = true → ∀ j, j < n → Chan.Obs.doneW j .ok ∈ c.log
  last : ∀ j, w = some j → j + 1 = c.nextW
  cnt : G.length + r.toList.length = c.nextR
  got : ∃ e, G ++ newly r c.log vals = vmap vals (delivered c.log) ++ List.replicate e .broken ∧
    (e ≠ 0 → c.closed = true ∧ (delivered c.log).length = n)

/-- … and now they have. -/
structure Li (c : Chan.St) (n : Nat) (vals : List Nat) (G : List Res) (r w : Option Nat) : Prop
    extends Lo c n vals G r w where
  st : Set' c r w

theorem Li.init (cap : Nat) : Li (Chan.St.init cap) 0 [] [] none none := by
  refine ⟨⟨CI.init cap, Plain.init cap, rfl, Nat.le_refl _, ?_, ?_, ?_, ?_, ?_, rfl, ⟨0, rfl, ?_⟩⟩, ⟨?_, ?_⟩⟩ <;>
    simp [Chan.St.init]

theorem filter_range_le (p : Nat → Bool) {n m : Nat} (h : n ≤ m) (hp : ∀ j, n ≤ j → j < m → p j = false) :
    (List.range m).filter p = (List.range n).filter p := by
  obtain ⟨k, rfl⟩ := Nat.exists_eq_add_of_le h
  rw [List.range_add, List.filter_append]
  have : ((List.range k).map (n + ·)).filter p = [] := by
    rw [List.filter_eq_nil_iff]
    intro a ha
    simp only [List.mem_map, List.mem_range] at ha
    obtain ⟨x, hx, rfl⟩ := ha
    rw [hp _ (by omega) (by omega)]; simp
  rw [this, List.append_nil]

/-- Whether the value of a write was taken over. -/
def took (c : Chan.St) (w : Nat) : Bool :=
  decide (Chan.Obs.doneW w .ok ∈ c.log) || (decide ((c.W w).status = .susp) && (c.W w).direct)

theorem taken_le {c : Chan.St} (f : Plain c) (hs : startsW c.log = List.range c.nextW) {n : Nat} (nle : n ≤ c.nextW)
    (cf : ∀ j, j < c.nextW → ((c.W j).closedF = true ↔ n ≤ j)) :
    c.taken = (List.range n).filter (took c) := by
  unfold Chan.St.taken
  rw [hs]
  refine filter_range_le (took c) nle fun j h1 h2 => ?_
  have h3 := (cf j h2).2 h1
  have h4 := f.cfW j h3
  unfold took
  have h5 : Chan.Obs.doneW j .ok ∉ c.log := by
    intro h6
    rcases f.resW j _ h6 with h | h
    · rw [h3] at h; cases h.2
    · cases h.1
  have h6 : (c.W j).status ≠ .susp := by
    intro h7
    rw [f.suspW j h7] at h4; cases h4
  simp [h5, h6]

theorem Lo.taken_cases {c : Chan.St} {n : Nat} {vals : List Nat} {G : List Res} {r w : Option Nat}
    (l : Lo c n vals G r w) :
    c.taken = List.range n ∨ (c.taken = List.range (n - 1) ∧ 0 < n ∧ w = some (n - 1) ∧ n = c.nextW) := by
  rw [taken_le l.fine l.ci.sw l.nle l.cf]
  rcases Pipe.filter_range_last (took c) n (fun j hj => by
    rcases l.okW j hj with h1 | h1
    · left; simp [took, h1]
    · have := l.last j h1
      have := l.nle
      right; omega) with h | h
  · exact .inl h
  · by_cases hk : took c (n - 1) = true
    · left
      rw [List.filter_eq_self]
      intro a ha
      rw [List.mem_range] at ha
      rcases l.okW a ha with h1 | h1
      · simp [took, h1]
      · have := l.last a h1
        have h2 : a = n - 1 := by have := l.nle; omega
        rw [h2]; exact hk
    · refine .inr ⟨h.1, h.2, ?_⟩
      rcases l.okW (n - 1) (by omega) with h1 | h1
      · exact absurd (by simp [took, h1]) hk
      · exact ⟨h1, by have := l.last _ h1; have := l.nle; omega⟩

theorem Lo.taken_pre {c : Chan.St} {n : Nat} {vals : List Nat} {G : List Res} {r w : Option Nat}
    (l : Lo c n vals G r w) : c.taken <+: List.range n := by
  rcases l.taken_cases with h | h
  · rw [h]; exact List.prefix_refl _
  · rw [h.1]
    refine ⟨[n - 1], ?_⟩
    rw [← List.range_succ]; congr 1; omega

theorem taken_closed {c : Chan.St} {n : Nat} (f : Plain c) (hs : startsW c.log = List.range c.nextW)
    (nle : n ≤ c.nextW) (cf : ∀ j, j < c.nextW → ((c.W j).closedF = true ↔ n ≤ j))
    (cls : ∀ j, j < n → Chan.Obs.doneW j .ok ∈ c.log) : c.taken = List.range n := by
  rw [taken_le f hs nle cf, List.filter_eq_self]
  intro a ha
  rw [List.mem_range] at ha
  simp [took, cls a ha]

theorem delivered_taken {c : Chan.St} {r w : Option Nat} (ci : CI c r w) : delivered c.log <+: c.taken := by
  obtain ⟨hand, -, -, h3⟩ := ci.j.split
  exact ⟨c.buf ++ hand, by rw [← h3, List.append_assoc]⟩

/-- What has been delivered are the first values. -/
theorem Lo.delivered {c : Chan.St} {n : Nat} {vals : List Nat} {G : List Res} {r w : Option Nat}
    (l : Lo c n vals G r w) : delivered c.log = List.range (delivered c.log).length ∧ (delivered c.log).length ≤ n :=
  Pipe.prefix_range ((delivered_taken l.ci).trans l.taken_pre)

theorem vmap_append (vals a b : List Nat) : vmap vals (a ++ b) = vmap vals a ++ vmap vals b := by simp [vmap]

theorem vmap_grow {vals : List Nat} (v : List Nat) {ws : List Nat} (h : ∀ w ∈ ws, w < vals.length) :
    vmap (vals ++ v) ws = vmap vals ws := by
  refine List.map_congr_left fun w hw => ?_
  rw [List.getD_eq_getElem?_getD, List.getD_eq_getElem?_getD, List.getElem?_append_left (h w hw)]

theorem Li.no_newly {c : Chan.St} {n : Nat} {vals : List Nat} {G : List Res} {r w : Option Nat}
    (l : Li c n vals G r w) : newly r c.log vals = [] := by
  unfold Net.newly
  split
  · rw [Chan.resultOf_none.2 (l.st.r _ rfl)]
  · rfl

theorem resultOf_mem {log : List Chan.Obs} {i : Nat} {r : Chan.RRes} (h : resultOf log i = some r) :
    Chan.Obs.doneR i r ∈ log := by
  simp only [resultOf] at h
  obtain ⟨o, ho, h⟩ := List.exists_of_findSome?_eq_some h
  cases o with
  | doneR j x =>
    dsimp only at h
    split at h
    · cases h; subst_vars; exact ho
    · cases h
  | _ => cases h

/-- What a step of the channel brings. -/
theorem Li.got_step {c : Chan.St} {n : Nat} {vals : List Nat} {G : List Res} {r w : Option Nat}
    (l : Li c n vals G r w) {c' : Chan.St} {n' : Nat} {r' w' : Option Nat} (v m : _) (ci' : CI c' r' w')
    (f' : Plain c') (hl : c'.log = c.log ++ m)
    (hold : ∀ i, i < c'.nextR → r' = some i ∨ i ∈ endedR c.log) (hr : ∀ i, r' = some i → i ∉ endedR c.log)
    (hc : c.closed = true → c'.closed = true ∧ n' = n) (tk : c'.closed = true → c'.taken = List.range n')
    (hp : c'.taken <+: List.range n') :
    ∃ e, G ++ newly r' c'.log (vals ++ v) = vmap (vals ++ v) (delivered c'.log) ++ List.replicate e .broken ∧
      (e ≠ 0 → c'.closed = true ∧ (delivered c'.log).length = n') := by
  obtain ⟨e, he, hel⟩ := l.got
  rw [l.no_newly, List.append_nil] at he
  have hd := ci'.new hl hold hr
  have hlt : ∀ x ∈ delivered c.log, x < vals.length := by
    intro x hx
    have h1 := l.delivered
    rw [h1.1] at hx
    rw [List.mem_range] at hx
    have := l.len; have := l.nle; omega
  have hlen : (delivered c'.log).length ≤ n' := by
    have := ((delivered_taken ci').trans hp).length_le
    simpa using this
  rw [← vmap_grow v hlt] at he
  rw [hd, vmap_append]
  have hsame : (newly r' c'.log (vals ++ v) = [] ∧ newOf r' c'.log = []) →
      ∃ e, G ++ newly r' c'.log (vals ++ v) =
        vmap (vals ++ v) (delivered c.log) ++ vmap (vals ++ v) (newOf r' c'.log) ++ List.replicate e .broken ∧
      (e ≠ 0 → c'.closed = true ∧ (delivered c.log ++ newOf r' c'.log).length = n') := by
    rintro ⟨h1, h2⟩
    refine ⟨e, by rw [h1, h2, he]; simp [vmap], fun h => ?_⟩
    obtain ⟨h3, h4⟩ := hel h
    obtain ⟨h5, h6⟩ := hc h3
    exact ⟨h5, by rw [h2, List.append_nil, h4, h6]⟩
  cases hr' : r' with
  | none => rw [hr'] at hsame; exact hsame ⟨rfl, rfl⟩
  | some i =>
    rw [hr'] at hsame hd
    cases hx : resultOf c'.log i with
    | none => exact hsame ⟨by simp [newly, hx], by simp [newOf, hx]⟩
    | some x =>
      have hm := resultOf_mem hx
      rcases f'.resR i x hm with ⟨w0, rfl⟩ | ⟨rfl, h1, h2⟩
      · have hn : newOf (some i) c'.log = [w0] := by simp [newOf, hx]
        have hne : newly (some i) c'.log (vals ++ v) = [.val ((vals ++ v).getD w0 0)] := by simp [newly, hx, ofR]
        have he0 : e = 0 := by
          apply Classical.byContradiction
          intro h
          obtain ⟨h3, h4⟩ := hel h
          obtain ⟨h5, h6⟩ := hc h3
          rw [hd, hn, List.length_append, h4, h6] at hlen
          exact absurd hlen (by simp)
        subst he0
        refine ⟨0, ?_, fun h => absurd rfl h⟩
        rw [hne, hn, he]
        simp [vmap]
      · have hn : newOf (some i) c'.log = [] := by simp [newOf, hx]
        have hne : newly (some i) c'.log (vals ++ v) = [.broken] := by simp [newly, hx, ofR]
        have hde : delivered c'.log = List.range n' := by
          rw [← tk h1]
          have := ci'.j.fifo0 (fun x hxx => by
            exfalso
            rcases hxx with hxx | hxx
            · have hxl : x < c'.nextR := by
                rcases Nat.lt_or_ge x c'.nextR with h4 | h4
                · exact h4
                · rw [ci'.h.rnew x h4] at hxx; cases hxx
              rcases ci'.allR x hxl with h4 | h4
              · rw [hr'] at h4
                have : i = x := by simpa using h4.1
                subst this
                have := ci'.t.endR i _ hm
                rw [hxx] at this; simp at this
              · rw [hxx] at h4; cases h4.2.1
            · cases hxx)
          rw [h2, List.append_nil] at this
          exact this
        refine ⟨e + 1, ?_, fun _ => ⟨h1, ?_⟩⟩
        · rw [hne, hn, he]
          simp [vmap, List.replicate_succ']
        · rw [← hd, hde]; simp

/-- The executor resumes somebody. -/
theorem Li.run {c : Chan.St} {n : Nat} {vals : List Nat} {G : List Res} {r w : Option Nat}
    (l : Li c n vals G r w) (k : Nat) : Lo (c.step (.run k)) n vals G r w := by
  obtain ⟨ci, m, hl, nR, nW⟩ := l.ci.outer l.st (e := .run k) rfl
  have f := l.fine.step_run l.ci.h k
  have ck := CK.step_run c k
  have cf : ∀ j, j < (c.step (.run k)).nextW → (((c.step (.run k)).W j).closedF = true ↔ n ≤ j) := by
    intro j hj; rw [ck.w, l.cf j (nW ▸ hj)]
  have okW : ∀ j, j < n → Chan.Obs.doneW j .ok ∈ (c.step (.run k)).log ∨ w = some j := by
    intro j hj; rw [hl]; exact (l.okW j hj).imp_left (List.mem_append_left _)
  have cls : (c.step (.run k)).closed = true → ∀ j, j < n → Chan.Obs.doneW j .ok ∈ (c.step (.run k)).log := by
    intro h j hj; rw [hl]; exact List.mem_append_left _ (l.cls (ck.closed ▸ h) j hj)
  have nle : n ≤ (c.step (.run k)).nextW := by rw [nW]; exact l.nle
  have last : ∀ j, w = some j → j + 1 = (c.step (.run k)).nextW := by rw [nW]; exact l.last
  have pre : (c.step (.run k)).taken <+: List.range n := by
    rw [taken_le f ci.sw nle cf]
    rcases Pipe.filter_range_last (took (c.step (.run k))) n (fun j hj => by
      rcases okW j hj with h1 | h1
      · left; simp [took, h1]
      · have := last j h1
        right; omega) with h | h
    · rw [h]; exact List.prefix_refl _
    · rw [h.1]
      exact ⟨[n - 1], by rw [← List.range_succ]; congr 1; omega⟩
  have gt := l.got_step (n' := n) [] m ci f hl (fun i hi => (l.ci.allR i (nR ▸ hi)).imp (·.1) (·.2.2)) l.st.r
    (fun h => ⟨by rw [ck.closed]; exact h, rfl⟩) (fun h => taken_closed f ci.sw nle cf (cls h)) pre
  rw [List.append_nil] at gt
  exact ⟨ci, f, by rw [nW]; exact l.len, nle, by rw [ck.closed, nW]; exact l.op, okW, cf, cls, last,
    by rw [nR]; exact l.cnt, gt⟩

/-- The taken values, from the facts about writes. -/
theorem pre_of {c : Chan.St} {n : Nat} {w : Option Nat} (f : Plain c) (hs : startsW c.log = List.range c.nextW)
    (nle : n ≤ c.nextW) (cf : ∀ j, j < c.nextW → ((c.W j).closedF = true ↔ n ≤ j))
    (okW : ∀ j, j < n → Chan.Obs.doneW j .ok ∈ c.log ∨ w = some j) (last : ∀ j, w = some j → j + 1 = c.nextW) :
    c.taken <+: List.range n := by
  rw [taken_le f hs nle cf]
  rcases Pipe.filter_range_last (took c) n (fun j hj => by
    rcases okW j hj with h1 | h1
    · left; simp [took, h1]
    · have := last j h1
      right; omega) with h | h
  · rw [h]; exact List.prefix_refl _
  · rw [h.1]
    exact ⟨[n - 1], by rw [← List.range_succ]; congr 1; omega⟩

/-- The reader begins to read. -/
theorem Li.read {c : Chan.St} {n : Nat} {vals : List Nat} {G : List Res} {w : Option Nat}
    (l : Li c n vals G none w) (conn : Bool) :
    Lo ((c.step .mkR).step (.awaitR c.nextR conn false [])) n vals G (some c.nextR) w := by
  obtain ⟨ci, m, hl, nR, nW⟩ := l.ci.read l.st conn
  have f := l.fine.step_read conn
  have ck := CK.step_read c c.nextR conn
  generalize (c.step .mkR).step (.awaitR c.nextR conn false []) = c' at *
  have cf : ∀ j, j < c'.nextW → ((c'.W j).closedF = true ↔ n ≤ j) := by
    intro j hj; rw [ck.w, l.cf j (nW ▸ hj)]
  have okW : ∀ j, j < n → Chan.Obs.doneW j .ok ∈ c'.log ∨ w = some j := by
    intro j hj; rw [hl]; exact (l.okW j hj).imp_left (List.mem_append_left _)
  have cls : c'.closed = true → ∀ j, j < n → Chan.Obs.doneW j .ok ∈ c'.log := by
    intro h j hj; rw [hl]; exact List.mem_append_left _ (l.cls (ck.closed ▸ h) j hj)
  have nle : n ≤ c'.nextW := by rw [nW]; exact l.nle
  have last : ∀ j, w = some j → j + 1 = c'.nextW := by rw [nW]; exact l.last
  have hne : c.nextR ∉ endedR c.log := fun h => Nat.lt_irrefl _ (l.ci.endLt h)
  have gt := l.got_step (n' := n) [] m ci f hl (fun i hi => by
      rw [nR] at hi
      by_cases hk : i = c.nextR
      · left; rw [hk]
      · rcases l.ci.allR i (by omega) with h | h
        · cases h.1
        · exact .inr h.2.2) (fun i hi => by cases hi; exact hne)
    (fun h => ⟨by rw [ck.closed]; exact h, rfl⟩) (fun h => taken_closed f ci.sw nle cf (cls h))
    (pre_of f ci.sw nle cf okW last)
  rw [List.append_nil] at gt
  refine ⟨ci, f, by rw [nW]; exact l.len, nle, by rw [ck.closed, nW]; exact l.op, okW, cf, cls, last, ?_, gt⟩
  have := l.cnt
  rw [nR]; simp at *; omega

/-- The writer begins to write. -/
theorem Li.write {c : Chan.St} {n : Nat} {vals : List Nat} {G : List Res} {r : Option Nat}
    (l : Li c n vals G r none) (conn : Bool) (v : Nat) :
    Lo ((c.step .mkW).step (.awaitW c.nextW conn false [])) (if c.closed then n else n + 1) (vals ++ [v]) G r
      (some c.nextW) := by
  obtain ⟨ci, m, hl, nR, nW⟩ := l.ci.write l.st conn
  have f := l.fine.step_write (fun res h => Nat.lt_irrefl _ (l.ci.endLtW ((Chan.mem_endedW _ _).2 ⟨res, h⟩))) conn
  obtain ⟨k1, k2, k3⟩ := Chan.closed_write l.ci.j.ub conn
  generalize (c.step .mkW).step (.awaitW c.nextW conn false []) = c' at *
  have hop := l.op
  have hnle := l.nle
  have nle : (if c.closed then n else n + 1) ≤ c'.nextW := by rw [nW]; split <;> omega
  have cf : ∀ j, j < c'.nextW → ((c'.W j).closedF = true ↔ (if c.closed then n else n + 1) ≤ j) := by
    intro j hj
    rw [nW] at hj
    by_cases hk : j = c.nextW
    · rw [hk, k2]
      cases hc : c.closed with
      | true => simpa using hnle
      | false => have := hop hc; simp; omega
    · rw [k3 j hk, l.cf j (by omega)]
      cases hc : c.closed with
      | true => simp
      | false => have := hop hc; simp; omega
  have okW : ∀ j, j < (if c.closed then n else n + 1) → Chan.Obs.doneW j .ok ∈ c'.log ∨ some c.nextW = some j := by
    intro j hj
    have key : j < n → Chan.Obs.doneW j .ok ∈ c'.log ∨ some c.nextW = some j := by
      intro h
      rw [hl]
      exact .inl (List.mem_append_left _ ((l.okW j h).resolve_right (by simp)))
    cases hc : c.closed with
    | true => rw [hc] at hj; exact key (by simpa using hj)
    | false =>
      rw [hc] at hj
      have := hop hc
      rcases Nat.lt_or_ge j n with h | h
      · exact key h
      · right; congr 1; simp at hj; omega
  have cls : c'.closed = true → ∀ j, j < (if c.closed then n else n + 1) → Chan.Obs.doneW j .ok ∈ c'.log := by
    intro h j hj
    rw [k1] at h
    rw [h] at hj
    rw [hl]; exact List.mem_append_left _ (l.cls h j (by simpa using hj))
  have last : ∀ j, some c.nextW = some j → j + 1 = c'.nextW := by intro j hj; cases hj; rw [nW]
  have gt := l.got_step (n' := if c.closed then n else n + 1) [v] m ci f hl
    (fun i hi => (l.ci.allR i (nR ▸ hi)).imp (·.1) (·.2.2)) l.st.r
    (fun h => ⟨by rw [k1]; exact h, by simp [h]⟩) (fun h => taken_closed f ci.sw nle cf (cls h))
    (pre_of f ci.sw nle cf okW last)
  exact ⟨ci, f, by rw [nW]; simp [l.len], nle, by rw [k1, nW]; intro h; have := hop h; simp [h]; exact this, okW, cf, cls,
    last, by rw [nR]; exact l.cnt, gt⟩

theorem step_close {c : Chan.St} (hu : c.ub = false) : c.step .close = c.close := by simp [Chan.St.step, hu]

/-- The writer closes the channel. -/
theorem Li.close {c : Chan.St} {n : Nat} {vals : List Nat} {G : List Res} {r : Option Nat}
    (l : Li c n vals G r none) : Lo (c.step .close) n vals G r none ∧ (c.step .close).closed = true := by
  obtain ⟨ci, m, hl, nR, nW⟩ := l.ci.outer l.st (e := .close) rfl
  have hst : ∀ j, (c.W j).status ≠ .fresh ∧ (c.W j).status ≠ .susp := by
    intro j
    rcases Nat.lt_or_ge j c.nextW with h | h
    · rcases l.ci.allW j h with h1 | h1
      · cases h1.1
      · rw [h1.2.1]; simp
    · rw [l.ci.h.wnew j h]; simp
  have hwq : c.wq = [] := by
    cases hq : c.wq with
    | nil => rfl
    | cons j js =>
      exact absurd ((l.ci.noStale l.st).2 j (by rw [hq]; simp)) (hst j).2
  have f := l.fine.step_close l.ci.j (fun i hi => (l.ci.h.rlink i hi).1) hwq hst
  have hcl : c.step .close = c.close := step_close l.ci.j.ub
  have hc' : (c.step .close).closed = true := by rw [hcl]; rfl
  have hw : ∀ j, ((c.step .close).W j).closedF = (c.W j).closedF := by
    intro j; rw [hcl]; simp [Chan.St.close, hwq]
  generalize c.step .close = c' at *
  refine ⟨?_, hc'⟩
  have cf : ∀ j, j < c'.nextW → ((c'.W j).closedF = true ↔ n ≤ j) := by
    intro j hj; rw [hw, l.cf j (nW ▸ hj)]
  have okW : ∀ j, j < n → Chan.Obs.doneW j .ok ∈ c'.log := by
    intro j hj; rw [hl]; exact List.mem_append_left _ ((l.okW j hj).resolve_right (by simp))
  have nle : n ≤ c'.nextW := by rw [nW]; exact l.nle
  have last : ∀ j, (none : Option Nat) = some j → j + 1 = c'.nextW := by simp
  have gt := l.got_step (n' := n) [] m ci f hl (fun i hi => (l.ci.allR i (nR ▸ hi)).imp (·.1) (·.2.2)) l.st.r
    (fun h => ⟨hc', rfl⟩) (fun h => taken_closed f ci.sw nle cf okW) (pre_of (w := none) f ci.sw nle cf (fun j h => .inl (okW j h)) last)
  rw [List.append_nil] at gt
  exact ⟨ci, f, by rw [nW]; exact l.len, nle, by rw [hc']; simp, fun j h => .inl (okW j h), cf, fun _ => okW, last,
    by rw [nR]; exact l.cnt, gt⟩

/-- The reader goes on: its read is destroyed. -/
theorem Lo.dropR {c : Chan.St} {n : Nat} {vals : List Nat} {G : List Res} {w : Option Nat} {i : Nat} {x : Chan.RRes}
    (l : Lo c n vals G (some i) w) (h : resultOf c.log i = some x) :
    Lo (c.step (.dropR i)) n vals (G ++ [ofR vals x]) none w := by
  have hi : i ∈ endedR c.log := by
    apply Classical.byContradiction
    intro hc
    rw [Chan.resultOf_none.2 hc] at h; cases h
  obtain ⟨ci, hl, nW⟩ := CI.dropR l.ci hi
  have nR : (c.step (.dropR i)).nextR = c.nextR := by
    unfold Chan.St.step; split
    · rfl
    · dsimp only; unfold Chan.St.dropR; split <;> rfl
  have ck := CK.step_dropR c i
  have f := l.fine.step_dropR i
  generalize c.step (.dropR i) = c' at *
  refine ⟨ci, f, by rw [nW]; exact l.len, by rw [nW]; exact l.nle, by rw [ck.closed, nW]; exact l.op,
    by rw [hl]; exact l.okW, ?_, by rw [hl, ck.closed]; exact l.cls, by rw [nW]; exact l.last, ?_, ?_⟩
  · intro j hj; rw [ck.w, l.cf j (nW ▸ hj)]
  · have := l.cnt; rw [nR]; simp at *; omega
  · have hg := l.got
    have hn : newly (some i) c.log vals = [ofR vals x] := by simp [newly, h]
    rw [hn] at hg
    rw [hl, ck.closed]
    have h0 : newly none c.log vals = [] := rfl
    rw [h0, List.append_nil]
    exact hg

/-- The writer goes on. -/
theorem Lo.dropW {c : Chan.St} {n : Nat} {vals : List Nat} {G : List Res} {r : Option Nat} {j : Nat} {x : Chan.WRes}
    (l : Lo c n vals G r (some j)) (h : Pipe.resultOfW c.log j = some x) :
    Lo (c.step (.dropW j)) n vals G r none ∧ (c.step (.dropW j)).log = c.log ∧
      (x = .ok ∧ j < n ∨ x = .brokenPipe ∧ n ≤ j) := by
  have hm := Pipe.resultOfW_mem h
  have hi : j ∈ endedW c.log := (Chan.mem_endedW _ _).2 ⟨x, hm⟩
  obtain ⟨ci, hl, nW⟩ := CI.dropW l.ci hi
  have nR : (c.step (.dropW j)).nextR = c.nextR := by
    unfold Chan.St.step; split
    · rfl
    · dsimp only; unfold Chan.St.dropW; split <;> rfl
  have ck := CK.step_dropW c j
  have f := l.fine.step_dropW j
  have hx : x = .ok ∧ j < n ∨ x = .brokenPipe ∧ n ≤ j := by
    have hlt : j < c.nextW := l.ci.curW j rfl
    rcases l.fine.resW j x hm with ⟨h1, h2⟩ | ⟨h1, h2⟩
    · refine .inl ⟨h1, ?_⟩
      rcases Nat.lt_or_ge j n with h3 | h3
      · exact h3
      · rw [(l.cf j hlt).2 h3] at h2; cases h2
    · exact .inr ⟨h1, (l.cf j hlt).1 h2⟩
  refine ⟨?_, hl, hx⟩
  generalize c.step (.dropW j) = c' at *
  refine ⟨ci, f, by rw [nW]; exact l.len, by rw [nW]; exact l.nle, by rw [ck.closed, nW]; exact l.op,
    ?_, ?_, by rw [hl, ck.closed]; exact l.cls, by simp, by rw [nR]; exact l.cnt, by rw [hl, ck.closed]; exact l.got⟩
  · intro k hk
    rw [hl]
    rcases l.okW k hk with h1 | h1
    · exact .inl h1
    · cases h1
      rcases hx with h2 | h2
      · rw [h2.1] at hm; exact .inl hm
      · omega
  · intro k hk; rw [ck.w, l.cf k (nW ▸ hk)]

end Cobalt.Net
