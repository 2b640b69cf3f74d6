import Verif.Same.ClosedRun
/-!
# C135 after `close`
-/
namespace Cobalt.Same
open Chan (upd Tok WF)

/-- **C135** after `close`: if at the close there was no value in the channel or on its way to a read, and no write that
had not been begun or was still to be resumed, then the two remain the same whatever is done. -/
theorem C135_after_close {cap : Nat} (h : cap < 2 ^ 64) (es : List Chan.Ev) (g : Good (Chan.exec cap es))
    (hn : NoLate (Chan.exec cap es)) (he : Emptied (Chan.exec cap es)) (es' : List Chan.Ev) :
    VChan.exec (BitVec.ofNat 64 cap) ((es ++ .close :: es').map ev) = empty (Chan.exec cap (es ++ .close :: es')) := by
  suffices VChan.exec (BitVec.ofNat 64 cap) ((es ++ .close :: es').map ev) = empty (Chan.exec cap (es ++ .close :: es')) ∧
      Quiet (Chan.exec cap (es ++ .close :: es')) from this.1
  have w := (Chan.reach g.ub).1
  have e0 := close_exec g.ub
  have hcl : (Chan.exec cap (es ++ [.close])).ub = false ∧ (Chan.exec cap (es ++ [.close])).closed = true := by
    rw [e0]; exact ⟨g.ub, rfl⟩
  induction es' using snocInd with
  | h0 =>
    refine ⟨?_, by rw [e0]; exact he.quiet w hn⟩
    rw [List.map_append]
    exact C135_close h es g
  | h1 l e ih =>
    obtain ⟨h1, h2⟩ := ih
    have ea : es ++ Chan.Ev.close :: (l ++ [e]) = (es ++ .close :: l) ++ [e] := by simp
    have en := Chan.C07_nothing_left cap (es ++ [.close]) l hcl.1 hcl.2
    have eb : (es ++ [Chan.Ev.close]) ++ l = es ++ .close :: l := by simp
    rw [eb] at en
    have w' := (Chan.reach en.1).1
    have f : Fit (Chan.exec cap (es ++ .close :: l)) := ⟨w'.len, by rw [Chan.exec_cap]; exact h⟩
    have hs := step_still w' en.2.1 h2 f e
    rw [ea, List.map_append, vexec_append, exec_append]
    rw [h1]
    exact hs

/-- **C135**, exactly: if at the close there is no write that has not been begun or is still to be resumed, the results
are the same whatever is done after the close if and only if at the close no value was in the buffer and none on its way
to a read. -/
theorem C135_exact {cap : Nat} (h : cap < 2 ^ 64) (es : List Chan.Ev) (g : Good (Chan.exec cap es))
    (hn : NoLate (Chan.exec cap es)) :
    (∀ es', (VChan.exec (BitVec.ofNat 64 cap) ((es ++ .close :: es').map ev)).log =
      (Chan.exec cap (es ++ .close :: es')).log.filterMap seen1) ↔
    Emptied (Chan.exec cap es) := by
  constructor
  · exact emptied_of h es g
  · intro he es'
    rw [C135_after_close h es g hn he es']; rfl

/-- **C135**, exactly, for a limit of at least 1 (with limit 0 a late write fails an assertion in `channel<T>`): the
results are the same whatever is done after the close if and only if at the close no value was in the buffer, none was on
its way to a read, and no write was left that had not been begun or was still to be resumed with its value. -/
theorem C135_exact_late {cap : Nat} (h : cap < 2 ^ 64) (hp : 0 < cap) (es : List Chan.Ev) (g : Good (Chan.exec cap es)) :
    (∀ es', (VChan.exec (BitVec.ofNat 64 cap) ((es ++ .close :: es').map ev)).log =
      (Chan.exec cap (es ++ .close :: es')).log.filterMap seen1) ↔
    Emptied (Chan.exec cap es) ∧ NoLate (Chan.exec cap es) := by
  constructor
  · intro hall
    have he := emptied_of h es g hall
    refine ⟨he, ?_⟩
    intro j hj
    apply Classical.byContradiction
    intro hx
    have w := (Chan.reach g.ub).1
    have hcap : (Chan.exec cap es).cap = cap := Chan.exec_cap cap es
    have hx1 : ((Chan.exec cap es).W j).cancelled = false := by
      cases hh : ((Chan.exec cap es).W j).cancelled with
      | false => rfl
      | true => exact absurd (Or.inl hh) hx
    have hx2 : ((Chan.exec cap es).W j).direct = false := by
      cases hh : ((Chan.exec cap es).W j).direct with
      | false => rfl
      | true => exact absurd (Or.inr hh) hx
    have hx3 : ((Chan.exec cap es).W j).closedF = false := by
      cases hh : ((Chan.exec cap es).W j).closedF with
      | false => rfl
      | true => have := w.wclosed j hh; rw [g.closed] at this; cases this
    have hnq : j ∉ (Chan.exec cap es).wq := by
      intro hm
      rcases hj with hj | hj
      · have := (w.wlink j hm).2.2; simp_all
      · exact (w.wpost j hj).2.2.1 hm
    have run' := run_close h es g
    have hR : (Chan.exec cap es).close.W j = (Chan.exec cap es).W j := by
      simp [Chan.St.close, hnq]
    generalize hd : (Chan.exec cap es).close = d at *
    have du : d.ub = false := by rw [← hd]; exact g.ub
    have dc : d.closed = true := by rw [← hd]; rfl
    have da : d.asserted = false := by rw [← hd]; exact g.asserted
    have db : d.buf = [] := by rw [← hd]; exact he.1
    have dp : 0 < d.cap := by rw [← hd]; show 0 < (Chan.exec cap es).cap; omega
    have dq : d.rq = [] ∧ d.wq = [] := by rw [← hd]; exact ⟨rfl, rfl⟩
    rw [← hR] at hx1 hx2 hx3
    rcases hj with hj | hj
    · have h1 := hall ([.awaitW j false false []] ++ [.mkR, .awaitR d.nextR false false []])
      rw [(run' _).1, (run' _).2] at h1
      have l := resumeW_late (c := { d with log := d.log ++ [.startW j] }) (i := j) dq.1 db dp da hx3 hx1 hx2
      have e1 : d.step (.awaitW j false false []) = Chan.St.resumeW { d with log := d.log ++ [.startW j] } j := by
        show (if d.ub = true then _ else d.awaitW j false false []) = _
        rw [if_neg (by rw [du]; simp), awaitW_go (by rw [hR, hj]; simp)]
        unfold goW
        rw [if_pos (by simp [Chan.St.writeReady, dc])]
      have e2 : (empty d).step (.awaitW j false false []) =
          (empty { d with log := d.log ++ [.startW j] }).resumeW j := by
        have vu : (empty d).ub = false := du
        have vs : ((empty d).W j).status = .fresh := by show (d.W j).status = _; rw [hR]; exact hj
        have vc : (empty d).closed = true := dc
        have ve : empty { d with log := d.log ++ [.startW j] } = empty d := by
          unfold empty
          have : seen (d.log ++ [Chan.Obs.startW j]) = seen d.log := by simp [seen, seen1]
          dsimp only
          rw [this]
        rw [ve]
        show (if (empty d).ub = true then _ else (empty d).awaitW j false false []) = _
        rw [if_neg (by rw [vu]; simp)]
        unfold VChan.St.awaitW
        rw [if_neg (by rw [vs]; simp), if_pos (by simp [VChan.St.writeReady, vc])]
      have e3 := e1.trans l.1
      have e4 := e2.trans l.2
      refine read_differs (d := d.step (.awaitW j false false [])) (by rw [e3]; exact du) (by rw [e3]; exact dc)
        (by rw [e3]; exact dq.2) (by rw [e3]; simp) ?_
      have en : (d.step (.awaitW j false false [])).nextR = d.nextR := by rw [e3]; rfl
      have ee : empty (d.step (.awaitW j false false [])) = (empty d).step (.awaitW j false false []) := by rw [e3, e4]
      rw [en, ee]
      exact h1
    · have hp' : Tok.w j ∈ d.posted := by rw [← hd]; exact List.mem_append_left _ (List.mem_append_left _ hj)
      obtain ⟨k, hk, hk2⟩ := List.mem_iff_getElem.1 hp'
      have hk3 : d.posted[k]? = some (.w j) := by rw [List.getElem?_eq_getElem hk, hk2]
      have h1 := hall ([.run k] ++ [.mkR, .awaitR d.nextR false false []])
      rw [(run' _).1, (run' _).2] at h1
      have l := resumeW_late (c := { d with posted := d.posted.eraseIdx k }) (i := j) dq.1 db dp da hx3 hx1 hx2
      have e1 : d.step (.run k) = Chan.St.resumeW { d with posted := d.posted.eraseIdx k } j := by
        show (if d.ub = true then _ else d.run k) = _
        rw [if_neg (by rw [du]; simp)]
        unfold Chan.St.run
        rw [hk3]
      have e2 : (empty d).step (.run k) = (empty { d with posted := d.posted.eraseIdx k }).resumeW j := by
        have vu : (empty d).ub = false := du
        show (if (empty d).ub = true then _ else (empty d).run k) = _
        rw [if_neg (by rw [vu]; simp)]
        unfold VChan.St.run
        have : (empty d).posted[k]? = some (.w j) := hk3
        rw [this]; rfl
      have e3 := e1.trans l.1
      have e4 := e2.trans l.2
      refine read_differs (d := d.step (.run k)) (by rw [e3]; exact du) (by rw [e3]; exact dc)
        (by rw [e3]; exact dq.2) (by rw [e3]; simp) ?_
      have en : (d.step (.run k)).nextR = d.nextR := by rw [e3]; rfl
      have ee : empty (d.step (.run k)) = (empty d).step (.run k) := by rw [e3, e4]
      rw [en, ee]
      exact h1
  · rintro ⟨he, hn⟩ es'
    rw [C135_after_close h es g hn he es']; rfl

/-- Both sides are possible: everything was read before the close, with a reader left waiting … -/
def drained : List Chan.Ev :=
  [.mkW, .awaitW 0 true false [], .mkR, .awaitR 0 true false [], .mkR, .awaitR 1 true false []]

/-- … or one value was not. -/
def leftOver : List Chan.Ev := [.mkW, .awaitW 0 true false [], .mkW, .awaitW 1 true false [], .mkR, .awaitR 0 true false []]

example : (Chan.exec 2 drained).ub = false ∧ (Chan.exec 2 drained).asserted = false ∧
    (Chan.exec 2 drained).closed = false ∧ (Chan.exec 2 drained).posted = [] ∧
    ((Chan.exec 2 drained).W 0).status = .done ∧ (Chan.exec 2 drained).nextW = 1 ∧ (Chan.exec 2 drained).buf = [] ∧
    (VChan.exec 2 ((drained ++ [Chan.Ev.close, .run 0, .mkR, .awaitR 2 true false []]).map ev)).log =
      [.doneW 0 .ok, .doneR 0 .ok, .doneR 1 .brokenPipe, .doneR 2 .brokenPipe] := by decide

example : (Chan.exec 2 leftOver).ub = false ∧ (Chan.exec 2 leftOver).asserted = false ∧
    (Chan.exec 2 leftOver).closed = false ∧ (Chan.exec 2 leftOver).posted = [] ∧ (Chan.exec 2 leftOver).buf = [1] ∧
    (VChan.exec 2 ((leftOver ++ [Chan.Ev.close, .mkR, .awaitR 1 true false []]).map ev)).log ≠
      (Chan.exec 2 (leftOver ++ [.close, .mkR, .awaitR 1 true false []])).log.filterMap seen1 := by decide

/-- A write made before the close and awaited after it: it goes into the buffer, where `channel<T>` finds it. -/
def madeBefore : List Chan.Ev := [.mkW]

example : (Chan.exec 1 madeBefore).ub = false ∧ (Chan.exec 1 madeBefore).closed = false ∧
    (Chan.exec 1 madeBefore).buf = [] ∧ ((Chan.exec 1 madeBefore).W 0).status = .fresh ∧
    ((Chan.exec 1 madeBefore).W 0).cancelled = false ∧
    (Chan.exec 1 (madeBefore ++ [.close, .awaitW 0 true false [], .mkR, .awaitR 0 true false []])).log.filterMap seen1 =
      [.doneW 0 .ok, .doneR 0 .ok] ∧
    (VChan.exec 1 ((madeBefore ++ [Chan.Ev.close, .awaitW 0 true false [], .mkR, .awaitR 0 true false []]).map ev)).log =
      [.doneW 0 .ok, .doneR 0 .brokenPipe] := by decide

end Cobalt.Same
