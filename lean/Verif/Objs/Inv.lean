import Verif.Objs.Eqs
/-! # The pool as a transition system, and its invariants -/
namespace Cobalt.Objs

open Chan (Status Tok Obs upd RRes WRes)

/-- The invariant of the pool. -/
structure PI (s : St) : Prop where
  ok : Ok s.ch
  made : s.made ≤ s.ch.cap
  noback : ∀ u i o, s.ph u ≠ .back i o
  wait : ∀ u j, s.ph u = .wait j → (s.ch.R j).status = .susp
  waitU : ∀ u v j, s.ph u = .wait j → s.ph v = .wait j → u = v
  waitE : ∀ j, (s.ch.R j).status = .susp → ∃ u, s.ph u = .wait j
  own : ∃ l : List (Nat × Nat), (l.map Prod.fst).Nodup ∧ (∀ u o, (u, o) ∈ l ↔ s.ph u = .has o) ∧
    (s.ch.buf.map s.obj ++ l.map Prod.snd).Perm (List.range s.made)

theorem PI.init (n : Nat) : PI (St.init n) := by
  refine ⟨Ok.init n, ?_, ?_, ?_, ?_, ?_, ⟨[], ?_, ?_, ?_⟩⟩ <;> simp [St.init, Chan.St.init]

/-- What an event does. -/
inductive Move (s : St) : Ev → St → Prop
  | idle (e : Ev) : Move s e s
  | make (u : Nat) : s.ph u = .out → s.made < s.ch.cap →
      Move s (.make u) { s with made := s.made + 1, ph := upd s.ph u (.has s.made) }
  | takeNow (u : Nat) (conn : Bool) (b : Nat) (bs : List Nat) : s.ph u = .out → s.ch.buf = b :: bs →
      Move s (.take u conn)
        { s with ph := upd s.ph u (.has (s.obj b))
                 ch := { s.ch with
                   R := upd s.ch.R s.ch.nextR { status := .done }, nextR := s.ch.nextR + 1, buf := bs
                   log := s.ch.log ++ [Obs.startR s.ch.nextR] ++ [Obs.doneR s.ch.nextR (.value b)] } }
  | takeWait (u : Nat) (conn : Bool) : s.ph u = .out → s.ch.buf = [] →
      Move s (.take u conn)
        { s with ph := upd s.ph u (.wait s.ch.nextR)
                 ch := { s.ch with
                   R := upd s.ch.R s.ch.nextR { status := .susp, waiting := true, slot := conn }
                   nextR := s.ch.nextR + 1, rq := s.ch.rq ++ [s.ch.nextR]
                   log := s.ch.log ++ [Obs.startR s.ch.nextR] } }
  | bring (u : Nat) (conn : Bool) (o : Nat) : s.ph u = .has o →
      Move s (.bring u conn)
        { s with ph := upd s.ph u .out
                 obj := upd s.obj s.ch.nextW o
                 ch := { s.ch with
                   W := upd s.ch.W s.ch.nextW { status := .done }, nextW := s.ch.nextW + 1
                   buf := s.ch.buf ++ [s.ch.nextW], rq := s.ch.rq.tail
                   R := match s.ch.rq with
                     | [] => s.ch.R
                     | j :: _ => upd s.ch.R j { s.ch.R j with waiting := false }
                   posted := s.ch.posted ++ (s.ch.rq.head?.map Tok.r).toList
                   log := s.ch.log ++ [Obs.startW s.ch.nextW] ++ [Obs.doneW s.ch.nextW .ok] } }
  | abort (k j u : Nat) : s.ch.posted[k]? = some (.r j) → (s.ch.R j).cancelled = true →
      s.ph u = .wait j →
      Move s (.run k)
        { s with ph := upd s.ph u .out
                 ch := { s.ch with
                   posted := s.ch.posted.eraseIdx k, log := s.ch.log ++ [Obs.doneR j .aborted]
                   R := upd s.ch.R j
                     { s.ch.R j with status := .done, slot := false, waiting := false } } }
  | got (k j u b : Nat) (bs : List Nat) : s.ch.posted[k]? = some (.r j) →
      (s.ch.R j).cancelled = false → s.ph u = .wait j → s.ch.buf = b :: bs →
      Move s (.run k)
        { s with ph := upd s.ph u (.has (s.obj b))
                 ch := { s.ch with
                   posted := s.ch.posted.eraseIdx k, log := s.ch.log ++ [Obs.doneR j (.value b)]
                   buf := bs
                   R := upd s.ch.R j
                     { s.ch.R j with status := .done, slot := false, waiting := false } } }
  | bad (k j : Nat) : s.ch.posted[k]? = some (.r j) → (s.ch.R j).cancelled = false → s.ch.buf = [] →
      Move s (.run k) { s with ch := { s.ch with posted := s.ch.posted.eraseIdx k, ub := true } }
  | cancel (u j : Nat) : s.ph u = .wait j → (s.ch.R j).slot = true →
      Move s (.cancel u)
        { s with ch := { s.ch with
                   R := upd s.ch.R j
                     { s.ch.R j with cancelled := true, slot := false, waiting := false }
                   rq := s.ch.rq.erase j
                   posted := if (s.ch.R j).waiting then s.ch.posted ++ [.r j] else s.ch.posted } }

theorem got_append (l m : List Obs) (j : Nat) : got (l ++ m) j = (got l j).or (got m j) := by
  simp [got, List.findSome?_append]

theorem got_none {l : List Obs} {j : Nat} (h : ∀ r, Obs.doneR j r ∉ l) : got l j = none := by
  unfold got
  rw [List.findSome?_eq_none_iff]
  intro x hx
  split
  · rename_i i w
    rw [if_neg]
    rintro rfl
    exact h _ hx
  · rfl

theorem got_value (j b : Nat) : got [Obs.doneR j (.value b)] j = some b := by simp [got]

theorem got_aborted (j i : Nat) : got [Obs.doneR j .aborted] i = none := by simp [got]

theorem got_start (j i : Nat) : got [Obs.startR j] i = none := by simp [got]

/-- A coroutine whose operation is not over stays where it is. -/
theorem goOn_same {c : Chan.St} {f : Nat → Nat} {p : Phase} (h1 : ∀ i o, p ≠ .back i o)
    (h2 : ∀ j, p = .wait j → (c.R j).status = .susp) : goOn c f p = p := by
  cases p with
  | out => rfl
  | has o => rfl
  | back i o => exact absurd rfl (h1 i o)
  | wait j => simp [goOn, h2 j rfl]

theorem PI.room {s : St} (h : PI s) {u o : Nat} (hu : s.ph u = .has o) :
    s.ch.buf.length < s.ch.cap := by
  obtain ⟨l, h1, h2, h3⟩ := h.own
  have hl := h3.length_eq
  simp only [List.length_append, List.length_map, List.length_range] at hl
  have : l ≠ [] := by rintro rfl; simpa using (h2 u o).2 hu
  have := List.length_pos_iff.2 this
  have := h.made
  omega

theorem step_id {s : St} (h : PI s) {e : Ev} (h1 : s.ch.steps (s.events e) = s.ch)
    (h2 : (s.step e).made = s.made) (h3 : s.carry e = s.obj) (h4 : ∀ v, s.phase e v = s.ph v) :
    s.step e = s := by
  have h0 : s.step e = { ch := s.ch.steps (s.events e), made := (s.step e).made, obj := s.carry e
                         ph := fun v => goOn (s.ch.steps (s.events e)) (s.carry e) (s.phase e v) } := rfl
  rw [h0, h1, h3, h2]
  have : (fun v => goOn s.ch s.obj (s.phase e v)) = s.ph := by
    funext v
    rw [h4]
    exact goOn_same (h.noback v) (h.wait v)
  rw [this]

theorem step_eq {s : St} {e : Ev} {c : Chan.St} {p : Nat → Phase}
    (h1 : s.ch.steps (s.events e) = c) (h2 : (s.step e).made = s.made)
    (h3 : ∀ v, goOn c (s.carry e) (s.phase e v) = p v) :
    s.step e = { ch := c, made := s.made, obj := s.carry e, ph := p } := by
  have h0 : s.step e = { ch := s.ch.steps (s.events e), made := (s.step e).made, obj := s.carry e
                         ph := fun v => goOn (s.ch.steps (s.events e)) (s.carry e) (s.phase e v) } := rfl
  rw [h0, h1, h2]
  have : (fun v => goOn c (s.carry e) (s.phase e v)) = p := funext h3
  rw [this]

theorem move {s : St} (h : PI s) (e : Ev) : Move s e (s.step e) := by
  cases e with
  | make u =>
    by_cases hm : s.may u = true
    · have hm' := hm
      simp only [St.may, Bool.and_eq_true, beq_iff_eq, decide_eq_true_eq] at hm'
      have : s.step (.make u) = { s with made := s.made + 1, ph := upd s.ph u (.has s.made) } := by
        unfold St.step
        have hp : (fun v => goOn (s.ch.steps (s.events (.make u))) (s.carry (.make u))
            (s.phase (.make u) v)) = upd s.ph u (.has s.made) := by
          funext v
          simp only [St.phase, hm, and_true, Chan.upd_apply]
          split
          · rfl
          · exact goOn_same (h.noback v) (h.wait v)
        rw [hp]
        simp only [hm, if_true]
        rfl
      rw [this]
      exact .make u hm'.1 hm'.2
    · rw [step_id h rfl (by simp [St.step, hm]) rfl (fun v => by simp [St.phase, hm])]
      exact .idle _
  | take u conn =>
    by_cases hu : s.ph u = .out
    · cases hb : s.ch.buf with
      | nil =>
        have he := take_wait h.ok conn hb
        have hev : s.events (.take u conn) = [.mkR, .awaitR s.ch.nextR conn false []] := by
          simp only [St.events, hu]
        rw [← hev] at he
        have hp : ∀ v, goOn { s.ch with
               R := upd s.ch.R s.ch.nextR { status := .susp, waiting := true, slot := conn }
               nextR := s.ch.nextR + 1, rq := s.ch.rq ++ [s.ch.nextR]
               log := s.ch.log ++ [Obs.startR s.ch.nextR] } (s.carry (.take u conn))
               (s.phase (.take u conn) v) = upd s.ph u (.wait s.ch.nextR) v := by
          intro v
          simp only [St.phase, hu, and_true, Chan.upd_apply]
          by_cases hv : v = u
          · simp [hv, goOn, Chan.upd_apply]
          · rw [if_neg hv]
            refine goOn_same (h.noback v) fun j hj => ?_
            dsimp only
            have := h.wait v j hj
            grind
        rw [step_eq he rfl hp]
        exact .takeWait u conn hu hb
      | cons b bs =>
        have he := take_ready h.ok conn hb
        have hev : s.events (.take u conn) = [.mkR, .awaitR s.ch.nextR conn false []] := by
          simp only [St.events, hu]
        rw [← hev] at he
        have hn := h.ok.new s.ch.nextR (Nat.le_refl _)
        have hg : got s.ch.log s.ch.nextR = none := got_none fun r hr => by
          have := h.ok.logR _ _ hr; rw [hn] at this; cases this
        have hp : ∀ v, goOn { s.ch with
              R := upd s.ch.R s.ch.nextR { status := .done }, nextR := s.ch.nextR + 1, buf := bs
              log := s.ch.log ++ [Obs.startR s.ch.nextR] ++ [Obs.doneR s.ch.nextR (.value b)] }
              (s.carry (.take u conn)) (s.phase (.take u conn) v) =
            upd s.ph u (.has (s.obj b)) v := by
          intro v
          simp only [St.phase, hu, and_true, Chan.upd_apply]
          by_cases hv : v = u
          · simp only [hv, if_true, goOn, Chan.upd_apply, got_append, hg, got_value, got_start, Option.none_or, St.carry]
          · rw [if_neg hv, if_neg hv]
            refine goOn_same (h.noback v) fun j hj => ?_
            dsimp only
            have := h.wait v j hj
            grind
        rw [step_eq he rfl hp]
        exact .takeNow u conn b bs hu hb
    · rw [step_id h (by simp only [St.events]; rfl) rfl rfl
        (fun v => by simp [St.phase, hu])]
      exact .idle _
  | bring u conn =>
    cases hu : s.ph u with
    | has o =>
      have he := bring_ready h.ok conn (h.room hu)
      have hev : s.events (.bring u conn) = [.mkW, .awaitW s.ch.nextW conn false []] := by
        simp only [St.events, hu]
      rw [← hev] at he
      have hc : s.carry (.bring u conn) = upd s.obj s.ch.nextW o := by
        funext w
        simp only [St.carry, hu, Chan.upd_apply]
      have hp : ∀ v, goOn { s.ch with
              W := upd s.ch.W s.ch.nextW { status := .done }, nextW := s.ch.nextW + 1
              buf := s.ch.buf ++ [s.ch.nextW], rq := s.ch.rq.tail
              R := match s.ch.rq with
                | [] => s.ch.R
                | j :: _ => upd s.ch.R j { s.ch.R j with waiting := false }
              posted := s.ch.posted ++ (s.ch.rq.head?.map Tok.r).toList
              log := s.ch.log ++ [Obs.startW s.ch.nextW] ++ [Obs.doneW s.ch.nextW .ok] }
              (s.carry (.bring u conn)) (s.phase (.bring u conn) v) = upd s.ph u .out v := by
        intro v
        simp only [St.phase, hu, Chan.upd_apply]
        by_cases hv : v = u
        · simp [hv, goOn, Chan.upd_apply]
        · rw [if_neg hv, if_neg hv]
          refine goOn_same (h.noback v) fun j hj => ?_
          dsimp only
          have := h.wait v j hj
          cases s.ch.rq with
          | nil => exact this
          | cons i rest =>
            dsimp only
            rw [Chan.upd_apply]; split
            · rename_i h'; subst h'; exact this
            · exact this
      rw [step_eq he rfl hp, hc]
      exact .bring u conn o hu
    | out =>
      rw [step_id h (by simp only [St.events, hu]; rfl) rfl (by funext w; simp [St.carry, hu])
        (fun v => by simp only [St.phase, hu]; split <;> simp_all)]
      exact .idle _
    | wait j =>
      rw [step_id h (by simp only [St.events, hu]; rfl) rfl (by funext w; simp [St.carry, hu])
        (fun v => by simp only [St.phase, hu]; split <;> simp_all)]
      exact .idle _
    | back i o => exact absurd hu (h.noback u i o)
  | run k =>
    cases hk : s.ch.posted[k]? with
    | none =>
      rw [step_id h (by simp only [St.events]; exact run_none hk) rfl rfl (fun _ => rfl)]
      exact .idle _
    | some t =>
      obtain ⟨j, rfl, hj, _⟩ := h.ok.post t (List.mem_of_getElem? hk)
      obtain ⟨u, hu⟩ := h.waitE j hj
      have hg : got s.ch.log j = none := got_none fun r hr => by
        have := h.ok.logR _ _ hr; rw [hj] at this; cases this
      by_cases hc : (s.ch.R j).cancelled = true
      · have he := run_abort h.ok hk hc
        change s.ch.steps (s.events (.run k)) = _ at he
        have hp : ∀ v, goOn { s.ch with
                posted := s.ch.posted.eraseIdx k, log := s.ch.log ++ [Obs.doneR j .aborted]
                R := upd s.ch.R j
                  { s.ch.R j with status := .done, slot := false, waiting := false } }
              (s.carry (.run k)) (s.phase (.run k) v) = upd s.ph u .out v := by
          intro v
          simp only [St.phase, Chan.upd_apply]
          by_cases hv : v = u
          · subst hv
            simp only [hu, if_true, goOn, Chan.upd_apply, got_append, hg, got_aborted, Option.none_or]
          · rw [if_neg hv]
            refine goOn_same (h.noback v) fun i hi => ?_
            dsimp only
            have := h.wait v i hi
            have : i ≠ j := by rintro rfl; exact hv (h.waitU _ _ _ hi hu)
            grind
        rw [step_eq he rfl hp]
        exact .abort k j u hk hc hu
      · have hc' : (s.ch.R j).cancelled = false := by simpa using hc
        cases hb : s.ch.buf with
        | nil =>
          have he := run_bad h.ok hk hc' hb
          change s.ch.steps (s.events (.run k)) = _ at he
          have hp : ∀ v, goOn { s.ch with posted := s.ch.posted.eraseIdx k, ub := true }
                (s.carry (.run k)) (s.phase (.run k) v) = s.ph v := by
            intro v
            exact goOn_same (h.noback v) (h.wait v)
          rw [step_eq he rfl hp]
          exact .bad k j hk hc' hb
        | cons b bs =>
          have he := run_got h.ok hk hc' hb
          change s.ch.steps (s.events (.run k)) = _ at he
          have hp : ∀ v, goOn { s.ch with
                  posted := s.ch.posted.eraseIdx k, log := s.ch.log ++ [Obs.doneR j (.value b)]
                  buf := bs
                  R := upd s.ch.R j
                    { s.ch.R j with status := .done, slot := false, waiting := false } }
                (s.carry (.run k)) (s.phase (.run k) v) = upd s.ph u (.has (s.obj b)) v := by
            intro v
            simp only [St.phase, Chan.upd_apply]
            by_cases hv : v = u
            · subst hv
              simp only [hu, if_true, goOn, Chan.upd_apply, got_append, hg, got_value, Option.none_or, St.carry]
            · rw [if_neg hv]
              refine goOn_same (h.noback v) fun i hi => ?_
              dsimp only
              have := h.wait v i hi
              have : i ≠ j := by rintro rfl; exact hv (h.waitU _ _ _ hi hu)
              grind
          rw [step_eq he rfl hp]
          exact .got k j u b bs hk hc' hu hb
  | cancel u =>
    cases hu : s.ph u with
    | wait j =>
      by_cases hs : (s.ch.R j).slot = true
      · have he := cancel_read h.ok j
        have hev : s.events (.cancel u) = [.cancelR j] := by
          simp only [St.events, hu]
        rw [← hev, if_pos hs] at he
        have hp : ∀ v, goOn { s.ch with
                R := upd s.ch.R j
                  { s.ch.R j with cancelled := true, slot := false, waiting := false }
                rq := s.ch.rq.erase j
                posted := if (s.ch.R j).waiting then s.ch.posted ++ [.r j] else s.ch.posted }
              (s.carry (.cancel u)) (s.phase (.cancel u) v) = s.ph v := by
          intro v
          refine goOn_same (h.noback v) fun i hi => ?_
          dsimp only
          have := h.wait v i hi
          grind
        rw [step_eq he rfl hp]
        exact .cancel u j hu hs
      · rw [step_id h (by simp only [St.events, hu]; rw [cancel_read h.ok, if_neg hs]) rfl rfl
          (fun _ => rfl)]
        exact .idle _
    | out => rw [step_id h (by simp only [St.events, hu]; rfl) rfl rfl (fun _ => rfl)]; exact .idle _
    | has o => rw [step_id h (by simp only [St.events, hu]; rfl) rfl rfl (fun _ => rfl)]; exact .idle _
    | back i o => exact absurd hu (h.noback u i o)

end Cobalt.Objs
