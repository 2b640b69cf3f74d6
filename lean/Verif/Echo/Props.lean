import Verif.Echo.Lemmas
/-!
# C129: a session of the echo server sends back what it receives, and ends when it is told to
-/
namespace Cobalt.Echo

/-- Two of the three parts hold whatever happens. Missing: `Stops`. -/
theorem C129_echo_partial (cap : Nat) (es : List Ev) (hc : 0 < cap) :
    Faithful (exec cap es) ∧ Whole (exec cap es) := by
  have h := I.exec hc es
  refine ⟨?_, fun hp => (h.fin (Or.inr hp)).2⟩
  obtain ⟨l, hl⟩ := h.pre
  exact ⟨l, hl⟩

/-- A session that is not over has what it has not sent back: nothing is lost before a failure or a cancellation. -/
theorem C129_kept (cap : Nat) (es : List Ev) (hc : 0 < cap) (hw : (exec cap es).ph ≠ .writeErr)
    (ho : ¬ Over (exec cap es)) :
    (exec cap es).sent = (exec cap es).out ++ (exec cap es).held ++ (exec cap es).inp :=
  ((I.exec hc es).bal hw fun w h => ho ⟨w, h⟩).symm

/-- While kernel and executor do what they can, the session moves on … -/
theorem C129_bound (cap : Nat) (es es' : List Ev) (hc : 0 < cap) (he : ∀ e ∈ es', e.works = true) :
    (exec cap es).useful cap es' ≤ 4 * (exec cap es).inp.length + 4 * (exec cap es).held.length + 3 := by
  refine Nat.le_trans (todo_steps hc es' (I.exec hc es) he) ?_
  unfold St.todo St.held
  cases (exec cap es).ph <;> dsimp only <;> omega

/-- … and when they cannot do anything it is over, or has sent everything back and waits for the client. -/
theorem C129_rest (cap : Nat) (es : List Ev) (hc : 0 < cap)
    (hq : ∀ e : Ev, e.works = true → (exec cap es).step cap e = exec cap es) (ho : ¬ Over (exec cap es)) :
    (exec cap es).ph = .reading ∧ (exec cap es).eof = false ∧ (exec cap es).out = (exec cap es).sent := by
  have h := I.exec hc es
  generalize exec cap es = s at *
  have hr := congrArg St.ph (hq .run rfl)
  have hv := congrArg St.ph (hq (.recv 0) rfl)
  have ha := congrArg St.ph (hq (.accept 0) rfl)
  cases hp : s.ph with
  | reading =>
    have hb := h.bal (by simp [hp]) (by simp [hp])
    simp only [St.step, hp, St.take] at hv
    cases hi : s.inp with
    | nil =>
      rw [hi] at hv
      dsimp only at hv
      refine ⟨rfl, ?_, ?_⟩
      · cases hE : s.eof with
        | false => rfl
        | true => rw [hE] at hv; simp at hv
      · simpa [St.held, hp, hi] using hb
    | cons b bs => rw [hi] at hv; simp at hv
  | read bs =>
    simp only [St.step, St.go, hp, St.await] at hr
    split at hr <;> cases hr
  | readErr w => simp [St.step, St.go, hp] at hr
  | writing bs => simp [St.step, hp] at ha
  | wrote bs =>
    cases bs with
    | nil =>
      simp only [St.step, St.go, hp, St.await] at hr
      split at hr <;> cases hr
    | cons b bs => simp [St.step, St.go, hp] at hr
  | writeErr => simp [St.step, St.go, hp] at hr
  | over w => exact absurd ⟨w, hp⟩ ho

/-- C129 does not hold: a session that is sending does not hear that it is cancelled, and a client that takes nothing
keeps it for ever. -/
theorem C129_violated : ¬ C129 := by
  intro h
  obtain ⟨n, hn⟩ := (h 4096 [.send [1], .recv 0, .run, .cancel] (by decide)).2.2 (by decide)
  exact held_not_over (held_runs 4096 n ⟨1, [], by decide⟩) hn

/-- Exactly: a cancelled session ends by itself if and only if the client has taken what was being sent. -/
theorem C129_exact (cap : Nat) (es : List Ev) (hc : 0 < cap) (hx : (exec cap es).cancelled = true) :
    Stops cap (exec cap es) ↔ ¬ Held (exec cap es) := by
  constructor
  · intro hs hh
    obtain ⟨n, hn⟩ := hs hx
    exact held_not_over (held_runs cap n hh) hn
  · exact fun hh _ => ⟨1, one_run cap (I.exec hc es) hx hh⟩

/-- A session that was cancelled while it was sending ends when the client takes the answer, which is then whole; it
reads nothing more. -/
theorem C129_late (cap n : Nat) (es : List Ev) (hc : 0 < cap) (rest : List Nat)
    (hx : (exec cap es).cancelled = true) (hp : (exec cap es).ph = .writing rest) :
    ((exec cap es).steps cap (taking n rest.length)).ph = .over .aborted ∧
    ((exec cap es).steps cap (taking n rest.length)).out = (exec cap es).out ++ rest :=
  taking_over cap n rest.length _ rest (Nat.le_refl _) hx ((I.exec hc es).wr rest hp) hp

/-! The server. -/

theorem serve_I {cap : Nat} (hc : 0 < cap) (n : Nat) (es : List SEv) : ∀ s ∈ serve cap n es, I s := by
  have : ∀ (es : List SEv) (ss : List St), (∀ s ∈ ss, I s) → ∀ s ∈ es.foldl (stepAll cap) ss, I s := by
    intro es
    induction es with
    | nil => exact fun _ h => h
    | cons e es ih =>
      intro ss h
      refine ih _ ?_
      cases e with
      | one i e =>
        intro s hs
        obtain ⟨j, hj, rfl⟩ := List.mem_iff_getElem.1 hs
        simp only [stepAll, List.getElem_modify]
        have hj' : j < ss.length := by simpa [stepAll] using hj
        split
        · exact (h _ (List.getElem_mem hj')).step hc e
        · exact h _ (List.getElem_mem hj')
      | stop =>
        intro s hs
        obtain ⟨s0, h0, rfl⟩ := List.mem_map.1 hs
        exact (h s0 h0).step hc .cancel
  exact this es _ fun s hs => by rw [List.eq_of_mem_replicate hs]; exact I.init

/-- Every client gets back what it sent, from the beginning. -/
theorem C129_server (cap n : Nat) (es : List SEv) (hc : 0 < cap) : ∀ s ∈ serve cap n es, Faithful s ∧ Whole s := by
  intro s hs
  have h := serve_I hc n es s hs
  refine ⟨?_, fun hp => (h.fin (Or.inr hp)).2⟩
  obtain ⟨l, hl⟩ := h.pre
  exact ⟨l, hl⟩

/-- A server that is told to stop stops by itself if and only if no client is keeping an answer waiting: one client that
does not read is enough to keep it. -/
theorem C129_server_stops (cap n : Nat) (es : List SEv) (hc : 0 < cap) :
    (∀ s ∈ serve cap n (es ++ [.stop]), ∃ m, Over (s.steps cap (List.replicate m .run))) ↔
      ∀ s ∈ serve cap n es, ¬ Held s := by
  have e : serve cap n (es ++ [.stop]) = (serve cap n es).map fun s => s.step cap .cancel := by
    simp [serve, stepAll]
  have key : ∀ s, Held (s.step cap .cancel) ↔ Held s := by
    intro s
    simp only [St.step, St.hear, Held]
    cases hp : s.ph with
    | writing bs => simp [emit_deaf]
    | _ => simp
  have hcan : ∀ s : St, (s.step cap .cancel).cancelled = true := by
    intro s
    simp only [St.step, St.hear]
    cases hp : s.ph with
    | writing bs => simp [emit_deaf]
    | _ => simp
  rw [e]
  constructor
  · intro h s hs hh
    obtain ⟨m, hm⟩ := h _ (List.mem_map.2 ⟨s, hs, rfl⟩)
    exact held_not_over (held_runs cap m ((key s).2 hh)) hm
  · intro h s hs
    obtain ⟨s0, h0, rfl⟩ := List.mem_map.1 hs
    exact ⟨1, one_run cap ((serve_I hc n es s0 h0).step hc .cancel) (hcan s0) fun hh => h s0 h0 ((key s0).1 hh)⟩

/-! The hypotheses are met. -/

/-- Five bytes in two pieces, sent back in three. -/
def talk : List Ev := [.send [1, 2, 3], .recv 1, .run, .accept 0, .run, .send [4, 5], .accept 5, .run, .close, .recv 9, .run,
  .accept 9, .run, .recv 0, .run]

example : (exec 4096 talk).ph = .over .eof ∧ (exec 4096 talk).out = [1, 2, 3, 4, 5] := by decide

/-- With a small buffer. -/
example : (exec 2 (talk.take 9)).out = [1, 2] ∧ (exec 2 (talk.take 9)).inp = [3, 4, 5] := by decide

/-- Cancelled while sending the second of two bytes; the client takes it and the session is over, though there is more. -/
def late : List Ev := [.send [1, 2, 3], .recv 1, .run, .accept 0, .run, .cancel]

example : (exec 2 late).cancelled = true ∧ (exec 2 late).ph = .writing [2] ∧ Held (exec 2 late) ∧
    ((exec 2 late).steps 2 (taking 0 1)).ph = .over .aborted ∧ ((exec 2 late).steps 2 (taking 0 1)).out = [1, 2] :=
  ⟨by decide, by decide, ⟨2, [], by decide⟩, by decide, by decide⟩

/-- Cancelled when the read was over: what was read is not sent back. -/
example : ((exec 2 [.send [1], .recv 0, .cancel, .run]).ph, (exec 2 [.send [1], .recv 0, .cancel, .run]).out) =
    (.over .aborted, []) := by decide

/-- Nothing to do but wait for the client. -/
example : (∀ e : Ev, e.works = true → (exec 2 [.send [1], .recv 0, .run, .accept 0, .run]).step 2 e =
    exec 2 [.send [1], .recv 0, .run, .accept 0, .run]) ∧ ¬ Over (exec 2 [.send [1], .recv 0, .run, .accept 0, .run]) := by
  have e : exec 2 [.send [1], .recv 0, .run, .accept 0, .run] = { sent := [1], out := [1] } := by decide
  rw [e]
  refine ⟨fun e he => ?_, ?_⟩
  · cases e <;> first | rfl | cases he
  · rintro ⟨w, hw⟩; cases hw

/-- Two sessions, one of which keeps the server. -/
example : serve 2 2 [.one 0 (.send [1]), .one 0 (.recv 0), .one 0 .run, .stop] =
    [{ sent := [1], ph := .writing [1], cancelled := true }, { ph := .readErr .aborted, cancelled := true }] := by decide

end Cobalt.Echo
