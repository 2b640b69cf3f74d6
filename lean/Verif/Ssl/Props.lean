import Verif.Ssl.Model
/-!
# Properties of `io::ssl::stream`
-/
namespace Cobalt.Ssl

/-! ## Specification

`session` says whether a handshake has succeeded and no shutdown since. -/

/-- The session after an observation. -/
def after (session : Bool) : Obs → Bool
  | .ended .handshake (.done true) => true
  | .ended .shutdown (.done true) => false
  | _ => session

/-- What may be observed of a stream with or without a session. -/
def Right (session : Bool) : Obs → Prop
  | .transfer l => l = if session then .tls else .socket
  | .answer b => b = session
  | .ended .handshake e => if session then e = .alreadyStarted else ∃ ok, e = .done ok
  | .ended .shutdown e => if session then ∃ ok, e = .done ok else e = .noProtocolOption
  | .made => True
  | .nothing => True

/-- Every observation of the history is right at its time. -/
def Upgrades (session : Bool) : List (Ev × Obs) → Prop
  | [] => True
  | (_, o) :: t => Right session o ∧ Upgrades (after session o) t

/-- **C63**, in full. -/
def C63 : Prop := ∀ es, Upgrades false (St.trace {} es)

/-! ## What the code does -/

/-- A stream as it is at any time: not upgraded, and neither is any operation made. -/
def Never (s : St) : Prop := s.upgraded = false ∧ ∀ o ∈ s.ops, o.upgraded = false

theorem Never.step {s : St} (h : Never s) (e : Ev) : Never (s.step e).1 := by
  cases e with
  | make k =>
    refine ⟨h.1, fun o ho => ?_⟩
    simp only [St.step, List.mem_append, List.mem_singleton] at ho
    rcases ho with ho | ho
    · exact h.2 o ho
    · rw [ho]; exact h.1
  | await i ok => simp only [St.step]; split <;> exact h
  | write b => exact h
  | read n => exact h
  | secure => exact h

/-- What `Never` streams show. -/
def Plain : Obs → Prop
  | .transfer l => l = .socket
  | .answer b => b = false
  | .ended .handshake e => ∃ ok, e = .done ok
  | .ended .shutdown e => e = .noProtocolOption
  | .made => True
  | .nothing => True

theorem Never.obs {s : St} (h : Never s) (e : Ev) : Plain (s.step e).2 := by
  cases e with
  | make k => trivial
  | await i ok =>
    simp only [St.step]
    split
    · trivial
    · rename_i o ho
      have hu := h.2 o (List.mem_of_getElem? ho)
      rcases o with ⟨k, u⟩
      simp only at hu
      subst hu
      cases k <;> simp [Plain, Op.run, Op.ready]
  | write b => simp [St.step, Plain, St.layer, h.1]
  | read n => simp [St.step, Plain, St.layer, h.1]
  | secure => simp [St.step, Plain, h.1]

theorem Never.trace {s : St} (h : Never s) (es : List Ev) :
    ∀ x ∈ s.trace es, Plain x.2 := by
  induction es generalizing s with
  | nil => simp [St.trace]
  | cons e es ih =>
    intro x hx
    simp only [St.trace, List.mem_cons] at hx
    rcases hx with hx | hx
    · rw [hx]; exact h.obs e
    · exact ih (h.step e) x hx

/-- Whatever is done with a stream, every byte is transferred in the clear, `secure()` is
false, every handshake is started and every shutdown is refused. -/
theorem C63_always_plain (es : List Ev) : ∀ x ∈ St.trace {} es,
    (∀ l, x.2 = .transfer l → l = .socket) ∧ (∀ b, x.2 = .answer b → b = false) ∧
    (∀ e, x.2 = .ended .handshake e → ∃ ok, e = .done ok) ∧
    (∀ e, x.2 = .ended .shutdown e → e = .noProtocolOption) := by
  intro x hx
  have h := Never.trace (s := {}) ⟨rfl, by simp⟩ es x hx
  refine ⟨?_, ?_, ?_, ?_⟩ <;> intro y hy <;> rw [hy] at h <;> exact h

example : St.trace {} [.make .handshake, .await 0 true, .write [1, 2, 3], .secure,
    .make .shutdown, .await 1 true] =
  [(.make .handshake, .made), (.await 0 true, .ended .handshake (.done true)),
   (.write [1, 2, 3], .transfer .socket), (.secure, .answer false), (.make .shutdown, .made),
   (.await 1 true, .ended .shutdown .noProtocolOption)] := rfl

/-- After a successful handshake bytes are written in the clear. -/
theorem C63_violated : ¬ C63 := by
  intro h
  have := h [.make .handshake, .await 0 true, .write [1, 2, 3]]
  simp [St.trace, St.step, Op.run, Op.ready, Upgrades, Right, after, St.layer] at this

/-- Already `secure()` is wrong after it. -/
theorem C63_secure_violated :
    ¬ Upgrades false (St.trace {} [.make .handshake, .await 0 true, .secure]) := by
  simp [St.trace, St.step, Op.run, Op.ready, Upgrades, Right, after]

/-- No handshake of the history succeeds, except with nothing shown after it but the making
of operations. -/
def Quiet : List (Ev × Obs) → Prop
  | [] => True
  | (_, o) :: t =>
    if o = .ended .handshake (.done true) then ∀ x ∈ t, x.2 = .made ∨ x.2 = .nothing
    else Quiet t

theorem upgrades_true {t : List (Ev × Obs)} (hp : ∀ x ∈ t, Plain x.2) :
    Upgrades true t ↔ ∀ x ∈ t, x.2 = .made ∨ x.2 = .nothing := by
  induction t with
  | nil => simp [Upgrades]
  | cons x t ih =>
    rcases x with ⟨e, o⟩
    have hx := hp _ (List.mem_cons_self ..)
    have ht := ih (fun y hy => hp y (List.mem_cons_of_mem _ hy))
    simp only [Upgrades, List.forall_mem_cons]
    cases o with
    | made => simp [Right, after, ht]
    | nothing => simp [Right, after, ht]
    | transfer l => simp only [Plain] at hx; simp [Right, hx]
    | answer b => simp only [Plain] at hx; simp [Right, hx]
    | ended k r =>
      cases k
      · simp only [Plain] at hx; obtain ⟨ok, hx⟩ := hx; simp [Right, hx]
      · simp only [Plain] at hx; simp [Right, hx]

theorem upgrades_false {t : List (Ev × Obs)} (hp : ∀ x ∈ t, Plain x.2) :
    Upgrades false t ↔ Quiet t := by
  induction t with
  | nil => simp [Upgrades, Quiet]
  | cons x t ih =>
    rcases x with ⟨e, o⟩
    have hx := hp _ (List.mem_cons_self ..)
    have hp' := fun y hy => hp y (List.mem_cons_of_mem _ hy)
    have ht := ih hp'
    simp only [Upgrades, Quiet]
    cases o with
    | made => simp [Right, after, ht]
    | nothing => simp [Right, after, ht]
    | transfer l => simp only [Plain] at hx; simp [Right, after, hx, ht]
    | answer b => simp only [Plain] at hx; simp [Right, after, hx, ht]
    | ended k r =>
      cases k
      · simp only [Plain] at hx
        obtain ⟨ok, hx⟩ := hx
        subst hx
        cases ok
        · simp [Right, after, ht]
        · simp [Right, after, upgrades_true hp']
      · simp only [Plain] at hx; simp [Right, after, hx, ht]

/-- A history is right exactly if nothing is transferred, asked, started or shut down after the
first successful handshake. -/
theorem C63_exact (es : List Ev) :
    Upgrades false (St.trace {} es) ↔ Quiet (St.trace {} es) :=
  upgrades_false (Never.trace (s := {}) ⟨rfl, by simp⟩ es)

example : Quiet (St.trace {} [.write [1], .make .handshake, .await 0 false, .read 4,
    .await 0 true, .make .shutdown]) := by
  simp [St.trace, St.step, Op.run, Op.ready, Quiet]

/-- A stream used without a successful handshake is right: plain, and says so. -/
theorem C63_partial (es : List Ev)
    (h : ∀ x ∈ St.trace {} es, x.2 ≠ .ended .handshake (.done true)) :
    Upgrades false (St.trace {} es) := by
  rw [C63_exact]
  revert h
  generalize St.trace {} es = t
  intro h
  induction t with
  | nil => trivial
  | cons x t ih =>
    rcases x with ⟨e, o⟩
    simp only [Quiet, if_neg (h _ (List.mem_cons_self ..))]
    exact ih (fun y hy => h y (List.mem_cons_of_mem _ hy))

example : ∀ x ∈ St.trace {} [.make .shutdown, .await 0 true, .write [1, 2], .make .handshake,
    .await 1 false, .read 3, .secure], x.2 ≠ .ended .handshake (.done true) := by
  decide

end Cobalt.Ssl
