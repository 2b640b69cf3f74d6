import Verif.Result.Spec
/-!
# Properties of results
-/
namespace Cobalt.Result

theorem interpret_error (e : Nat) (rest : List Arg) : interpret (.err (some e) :: rest) = .error e := by
  rcases rest with _ | ⟨a, _ | ⟨b, l⟩⟩ <;> rfl

theorem interpret_ok (rest : List Arg) :
    ∃ v, interpret (.err none :: rest) = .value v ∧ Shows v rest := by
  rcases rest with _ | ⟨a, _ | ⟨b, l⟩⟩
  · exact ⟨_, rfl, .void⟩
  · exact ⟨_, rfl, .one a⟩
  · exact ⟨_, rfl, .tuple a b l⟩

theorem interpret_plain (args : List Arg) (h : ∀ e rest, args ≠ .err e :: rest) :
    ∃ v, interpret args = .value v ∧ Shows v args := by
  rcases args with _ | ⟨a, _ | ⟨b, l⟩⟩
  · exact ⟨_, rfl, .void⟩
  · cases a with
    | err e => exact absurd rfl (h e [])
    | val v => exact ⟨_, rfl, .one _⟩
  · cases a with
    | err e => exact absurd rfl (h e (b :: l))
    | val v => exact ⟨_, rfl, .tuple _ _ _⟩

/-- Either the leading error is set, or there is a payload. -/
theorem lead_or_payload (args : List Arg) :
    (∃ e, LeadingError args e) ∨ ∃ l, Payload args l := by
  rcases args with _ | ⟨a, l⟩
  · exact .inr ⟨_, .noError _ (fun _ _ h => nomatch h)⟩
  · cases a with
    | val v => exact .inr ⟨_, .noError _ (fun _ _ h => by injection h with h; cases h)⟩
    | err e =>
      cases e with
      | none => exact .inr ⟨_, .ok l⟩
      | some e => exact .inl ⟨e, .intro e l⟩

theorem interpret_payload {args l : List Arg} (h : Payload args l) :
    ∃ v, interpret args = .value v ∧ Shows v l := by
  cases h with
  | noError _ h => exact interpret_plain _ h
  | ok => exact interpret_ok _

/-- **C51**, for operations: a throwing await throws exactly if the leading argument is an
error and set, and then that error; otherwise it gives the other arguments. `as_result` holds
what the throwing await throws or gives. `as_tuple` gives the arguments as they are. -/
def C51 : Prop := ∀ args : List Arg,
  (∀ e, (Done.completed args).resume = .throw e ↔ LeadingError args e) ∧
  (∀ l, Payload args l → ∃ v, (Done.completed args).resume = .ret v ∧ Shows v l) ∧
  (∃ r, (Done.completed args).asResult = .ret r ∧
    (∀ e, r = .error e ↔ (Done.completed args).resume = .throw e) ∧
    (∀ v, r = .value v ↔ (Done.completed args).resume = .ret v)) ∧
  (Done.completed args).asTuple = .ret args

theorem C51_holds : C51 := by
  intro args
  refine ⟨fun e => ⟨fun h => ?_, fun h => ?_⟩, fun l h => ?_, ?_, rfl⟩
  · rcases lead_or_payload args with ⟨e', h'⟩ | ⟨l, h'⟩
    · cases h'
      simp only [Done.resume, interpret_error, Res.get] at h
      cases h
      exact .intro _ _
    · obtain ⟨v, hv, _⟩ := interpret_payload h'
      simp only [Done.resume, hv, Res.get] at h
      cases h
  · cases h
    simp only [Done.resume, interpret_error, Res.get]
  · obtain ⟨v, hv, hs⟩ := interpret_payload h
    exact ⟨v, by simp only [Done.resume, hv, Res.get], hs⟩
  · refine ⟨_, rfl, fun e => ?_, fun v => ?_⟩
    · cases h : interpret args <;> simp [Done.resume, h, Res.get]
    · cases h : interpret args <;> simp [Done.resume, h, Res.get]

example : (Done.completed [.err (some 3), .val 1, .val 2]).resume = .throw 3 ∧
    (Done.completed [.err none, .val 1, .err (some 4)]).resume = .ret (.tuple [.val 1, .err (some 4)]) ∧
    (Done.completed [.val 1, .err (some 4)]).asResult = .ret (.value (.tuple [.val 1, .err (some 4)])) ∧
    (Done.completed [.err (some 3), .val 1]).asTuple = .ret [.err (some 3), .val 1] := by decide

/-- The payload is all but the leading error: there is exactly one. -/
theorem C51_payload (args l l' : List Arg) (h : Payload args l) (h' : Payload args l') : l = l' := by
  cases h with
  | noError _ hn =>
    cases h' with
    | noError _ _ => rfl
    | ok _ => exact absurd rfl (hn _ _)
  | ok rest =>
    cases h' with
    | noError _ hn => exact absurd rfl (hn _ _)
    | ok _ => rfl

/-- No two completions look the same to `as_result`, as long as their arguments have the same
types and the error is not set. -/
theorem C51_lossless (a b : List Arg) (v : Val) (ha : interpret (.err none :: a) = .value v)
    (hb : interpret (.err none :: b) = .value v) : a = b := by
  obtain ⟨x, hx, sx⟩ := interpret_ok a
  obtain ⟨y, hy, sy⟩ := interpret_ok b
  rw [ha] at hx
  rw [hb] at hy
  cases hx; cases hy
  cases sx <;> cases sy <;> rfl

example : interpret [.err none, .val 1, .val 2] = .value (.tuple [.val 1, .val 2]) := rfl

/-- An exception of the initiation is thrown by all forms of awaiting, `as_result` and
`as_tuple` too. -/
theorem C51_initiation (e : Nat) : (Done.initThrew e).resume = .throw e ∧
    (Done.initThrew e).asResult = .throw e ∧ (Done.initThrew e).asTuple = .throw e :=
  ⟨rfl, rfl, rfl⟩

/-- `as_result` of an awaitable without an overload for it does not throw, and holds exactly
what the throwing await gives. -/
theorem C51_as_result (aw : Aw) (h : aw.tagResult = none) :
    ∃ r, aw.asResult = .ret r ∧ (∀ e, r = .error e ↔ aw.resume = .throw e) ∧
      (∀ v, r = .value v ↔ aw.resume = .ret v) := by
  unfold Aw.asResult
  rw [h]
  cases hr : aw.resume with
  | ret v => exact ⟨_, rfl, by simp, by simp⟩
  | throw e => exact ⟨_, rfl, by simp, by simp⟩

example : (Aw.asResult { resume := .throw 3, dflt := .void }) = .ret (.error 3) := rfl

/-- `as_tuple` of an awaitable that may throw and has no overload for it does not throw: it
gives the exception first, if there is one, and then the value. -/
theorem C51_as_tuple (aw : Aw) (w : List Arg → Arg) (h : aw.tagTuple = none) (hn : aw.nothrow = false) :
    (∀ v l, Shows v l → aw.resume = .ret v → aw.asTuple w = .ret (.err none :: l)) ∧
    (∀ e, aw.resume = .throw e → ∃ l, aw.asTuple w = .ret (.err (some e) :: l)) := by
  unfold Aw.asTuple
  rw [h, hn]
  constructor
  · intro v l hs hr
    rw [hr]
    cases hs <;> rfl
  · intro e hr
    rw [hr]
    exact ⟨_, rfl⟩

example : (Aw.asTuple { resume := .throw 3, dflt := .one (.val 0) } fun _ => .val 0)
    = .ret [.err (some 3), .val 0] := rfl

/-- One that is `noexcept` gives its value and no exception pointer. -/
theorem C51_as_tuple_nothrow (aw : Aw) (w : List Arg → Arg) (h : aw.tagTuple = none)
    (hn : aw.nothrow = true) :
    (aw.resume = .ret .void → aw.asTuple w = .ret []) ∧
    (∀ a, aw.resume = .ret (.one a) → aw.asTuple w = .ret [a]) := by
  unfold Aw.asTuple
  rw [h, hn]
  constructor
  · intro hr; rw [hr]; rfl
  · intro a hr; rw [hr]; rfl

example : (Aw.asTuple { resume := .ret (.one (.val 5)), nothrow := true, dflt := .void } fun _ => .val 0)
    = .ret [.val 5] := rfl

/-- The adaptors do for an operation what its own overloads do. -/
theorem C51_adaptors (d : Done) (v : Val) (w : List Arg → Arg) :
    (d.aw v).asResult = d.asResult ∧ (d.aw v).asTuple w = d.asTuple := ⟨rfl, rfl⟩

example : ((Done.completed [.err (some 1), .val 2]).aw .void).asResult = .ret (.error 1) := rfl

end Cobalt.Result
