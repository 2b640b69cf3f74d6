import Verif.Rep.Model
/-!
# C79: functions that return a result report in it what happened
-/
namespace Cobalt.Rep

/-- What each function is for: what Asio or the system is to be asked, in order. Two ways to open a
file are right. -/
def Asks (native : Bool) : Fn → List Prim
  | .sockOpen => [.open] | .sockClose => [.close] | .sockCancel => [.cancel]
  | .sockShutdown => [.shutdown] | .sockLocal => [.localEndpoint] | .sockRemote => [.remoteEndpoint]
  | .sockAssign => [.assign] | .sockRelease => [.release] | .sockReadable => [.bytesReadable]
  | .sockSet o => [.setOption o] | .sockGet o => [.getOption o]
  | .connectPair => [.socketpair, .assign, .assign]
  | .accBind => [.bind] | .accListen => [.listen]
  | .serClose => [.close] | .serCancel => [.cancel] | .serBreak => [.sendBreak]
  | .serAssign => [.assign] | .serOpen => [.open]
  | .serSet o => [.setSerial o] | .serGet o => [.getSerial o]
  | .sigCancel => [.cancel] | .sigClear => [.sigClear] | .sigAdd => [.sigAdd]
  | .sigRemove => [.sigRemove]
  | .fileAssign => [.assign] | .fileCancel => [.cancel]
  | .fileOpen => if native then [.open] else [.open, .assign]
  | .fileRelease => [.release] | .fileSize => [.size] | .fileResize => [.resize]
  | .fileSyncAll => [.syncAll] | .fileSyncData => [.syncData] | .fileClose => [.close]
  | .fileSeek => [.seek]
  | .pipeAssign => [.assign] | .pipeCancel => [.cancel] | .pipeRelease => [.release]
  | .pipeClose => [.close] | .pipeMake => [.connectPipe]
  | .sslDepth => [.verifyDepth] | .sslMode => [.verifyMode] | .sslCallback => [.verifyCallback]

/-- The functions that return a value. -/
def HasValue : Fn → Bool
  | .sockLocal | .sockRemote | .sockRelease | .sockReadable | .sockGet _ | .serGet _ | .fileRelease
  | .fileSize | .fileSeek | .pipeRelease | .pipeMake => true
  | _ => false

/-- The function stops at the first call that fails and returns its error; if there is none it
returns the value of the last call, or nothing if it has no value. -/
inductive Reports (hasValue : Bool) (ps : List Prim) (u : Nat → PR) (o : Out) : Prop where
  | failed (k e : Nat) : k < ps.length → u k = .fail e → (∀ j, j < k → ∃ v, u j = .ok v) →
      o = ⟨ps.take (k + 1), .error e⟩ → Reports hasValue ps u o
  | fine (v : Int) : (∀ j, j < ps.length → ∃ v, u j = .ok v) → u (ps.length - 1) = .ok v →
      o = ⟨ps, if hasValue then .value v else .void⟩ → Reports hasValue ps u o

/-- An argument that does not stand for anything is an error, which is returned as well. -/
def Refused (o : Out) : Prop := ∃ e, o = ⟨[], .error e⟩

/-- The arguments that have a meaning. -/
def Meant : Fn → Nat → Prop
  | .serSet .characterSize, n => 5 ≤ n ∧ n ≤ 8
  | .serSet .flowControl, n => n ≤ 2
  | .serSet .parity, n => n ≤ 2
  | _, _ => True

/-- C79: every function of the io library that returns a result does what it is for, returns the
value it got, and returns every error in the result instead of throwing it. -/
def C79 : Prop := ∀ (native : Bool) (f : Fn) (a : Nat) (u : Nat → PR),
  (Meant f a → Reports (HasValue f) (Asks native f) u (call native f a u)) ∧
  (¬ Meant f a → Refused (call native f a u))

/-- Where the functions do not: they throw, report success or give a wrong value. -/
def Wrong (native : Bool) (u : Nat → PR) : Fn → Prop
  | .fileSeek => if native then ∃ e, u 0 = .fail e else ∃ v, u 0 = .ok v ∧ v ≠ 0
  | .pipeMake => ∃ e, u 0 = .fail e
  | .fileRelease => native = false ∧ ∃ e, u 0 = .fail e
  | .fileCancel => native = false
  | _ => False

theorem reports_one {p : Prim} {r : Ret} {hv : Bool} {u : Nat → PR}
    (hr : (hv = true ∧ r = .last) ∨ (hv = false ∧ r = .void)) {st : Style}
    (hs : st = .ec ∨ st = .errno) : Reports hv [p] u (runCalls r u [(p, st)] 0 0 []) := by
  cases hu : u 0 with
  | ok v =>
    refine .fine v (fun j hj => ⟨v, ?_⟩) hu ?_
    · have : j = 0 := by simpa using hj
      rw [this, hu]
    · rcases hr with ⟨rfl, rfl⟩ | ⟨rfl, rfl⟩ <;> simp [runCalls, hu]
  | fail e =>
    refine .failed 0 e (by simp) hu (fun j hj => absurd hj (by omega)) ?_
    rcases hs with rfl | rfl <;> simp [runCalls, hu]

theorem not_reports_threw {hv : Bool} {ps qs : List Prim} {u : Nat → PR} :
    ¬ Reports hv ps u ⟨qs, .threw⟩ := by
  intro h
  cases h with
  | failed k e _ _ _ h => cases h
  | fine v _ _ h => cases hv <;> cases h

/-- Exactly when a function does what it should. -/
theorem C79_exact (native : Bool) (f : Fn) (a : Nat) (u : Nat → PR) (ha : Meant f a) :
    Reports (HasValue f) (Asks native f) u (call native f a u) ↔ ¬ Wrong native u f := by
  have std : ∀ {p : Prim} {r : Ret} {hv : Bool} {W : Prop},
      ((hv = true ∧ r = .last) ∨ (hv = false ∧ r = .void)) → ¬ W → ∀ {st : Style},
      (st = .ec ∨ st = .errno) →
      (Reports hv [p] u (runCalls r u [(p, st)] 0 0 []) ↔ ¬ W) :=
    fun hr hw _ hs => ⟨fun _ => hw, fun _ => reports_one hr hs⟩
  cases f with
  | connectPair =>
    refine ⟨fun _ h => h, fun _ => ?_⟩
    show Reports false [.socketpair, .assign, .assign] u
      (runCalls .void u [(.socketpair, .ec), (.assign, .ec), (.assign, .ec)] 0 0 [])
    cases h0 : u 0 with
    | fail e =>
      exact .failed 0 e (by simp) h0 (fun j hj => absurd hj (by omega)) (by simp [runCalls, h0])
    | ok v0 =>
      cases h1 : u 1 with
      | fail e =>
        refine .failed 1 e (by simp) h1 (fun j hj => ⟨v0, ?_⟩) (by simp [runCalls, h0, h1])
        have : j = 0 := by omega
        rw [this, h0]
      | ok v1 =>
        cases h2 : u 2 with
        | fail e =>
          refine .failed 2 e (by simp) h2 (fun j hj => ?_) (by simp [runCalls, h0, h1, h2])
          have : j = 0 ∨ j = 1 := by omega
          rcases this with rfl | rfl
          · exact ⟨_, h0⟩
          · exact ⟨_, h1⟩
        | ok v2 =>
          refine .fine v2 (fun j hj => ?_) h2 (by simp [runCalls, h0, h1, h2])
          have : j = 0 ∨ j = 1 ∨ j = 2 := by simp at hj; omega
          rcases this with rfl | rfl | rfl
          · exact ⟨_, h0⟩
          · exact ⟨_, h1⟩
          · exact ⟨_, h2⟩
  | serSet o =>
    have hacc : (body native (.serSet o)).accepts a = true := by
      cases o <;> simp_all [body, serialAccepts, Meant]
    show Reports false [.setSerial o] u (if (body native (.serSet o)).accepts a then _ else _) ↔ _
    rw [hacc]
    exact std (.inr ⟨rfl, rfl⟩) (fun h => h) (.inl rfl)
  | fileOpen =>
    cases native with
    | true => exact std (.inr ⟨rfl, rfl⟩) (fun h => h) (.inl rfl)
    | false =>
      refine ⟨fun _ h => h, fun _ => ?_⟩
      show Reports false [.open, .assign] u
        (runCalls .void u [(.open, .errno), (.assign, .ec)] 0 0 [])
      cases h0 : u 0 with
      | fail e =>
        exact .failed 0 e (by simp) h0 (fun j hj => absurd hj (by omega)) (by simp [runCalls, h0])
      | ok v0 =>
        cases h1 : u 1 with
        | fail e =>
          refine .failed 1 e (by simp) h1 (fun j hj => ⟨v0, ?_⟩) (by simp [runCalls, h0, h1])
          have : j = 0 := by omega
          rw [this, h0]
        | ok v1 =>
          refine .fine v1 (fun j hj => ?_) h1 (by simp [runCalls, h0, h1])
          have : j = 0 ∨ j = 1 := by simp at hj; omega
          rcases this with rfl | rfl
          · exact ⟨_, h0⟩
          · exact ⟨_, h1⟩
  | fileCancel =>
    cases native with
    | true => exact std (.inr ⟨rfl, rfl⟩) (fun h => Bool.noConfusion h) (.inl rfl)
    | false =>
      refine ⟨fun h => ?_, fun h => absurd rfl h⟩
      have h : Reports false [.cancel] u ⟨[], .void⟩ := h
      cases h with
      | failed k e _ _ _ h => cases h
      | fine v _ _ h => cases h
  | fileRelease =>
    cases native with
    | true => exact std (.inl ⟨rfl, rfl⟩) (fun h => Bool.noConfusion h.1) (.inl rfl)
    | false =>
      show Reports true [.release] u (runCalls .last u [(.release, .ignored)] 0 0 []) ↔ _
      cases h0 : u 0 with
      | ok v =>
        refine ⟨fun _ => ?_, fun _ => .fine v (fun j hj => ⟨v, ?_⟩) h0 (by simp [runCalls, h0])⟩
        · rintro ⟨-, e, he⟩; rw [h0] at he; cases he
        · have : j = 0 := by simpa using hj
          rw [this, h0]
      | fail e =>
        refine ⟨fun h => ?_, fun h => absurd ⟨rfl, e, h0⟩ h⟩
        cases h with
        | failed k e _ _ _ h => simp [runCalls, h0] at h
        | fine v _ hv _ => rw [show [Prim.release].length - 1 = 0 from rfl, h0] at hv; cases hv
  | fileSeek =>
    cases native with
    | true =>
      show Reports true [.seek] u (runCalls .last u [(.seek, .throws)] 0 0 []) ↔ _
      cases h0 : u 0 with
      | ok v =>
        refine ⟨fun _ => ?_, fun _ => .fine v (fun j hj => ⟨v, ?_⟩) h0 (by simp [runCalls, h0])⟩
        · rintro ⟨e, he⟩; rw [h0] at he; cases he
        · have : j = 0 := by simpa using hj
          rw [this, h0]
      | fail e =>
        refine ⟨fun h => ?_, fun h => absurd ⟨e, h0⟩ h⟩
        simp only [runCalls, h0] at h
        exact absurd h not_reports_threw
    | false =>
      show Reports true [.seek] u (runCalls .zero u [(.seek, .errno)] 0 0 []) ↔ _
      cases h0 : u 0 with
      | ok v =>
        constructor
        · rintro h ⟨v', hv', hne⟩
          rw [h0] at hv'
          cases hv'
          cases h with
          | failed k e hk hf _ _ =>
            have : k = 0 := by simpa using hk
            rw [this, h0] at hf; cases hf
          | fine w _ hw h =>
            rw [show [Prim.seek].length - 1 = 0 from rfl, h0] at hw
            cases hw
            simp [runCalls, h0] at h
            exact hne h.symm
        · intro h
          have : v = 0 := Classical.byContradiction fun hne => h ⟨v, h0, hne⟩
          subst this
          refine .fine 0 (fun j hj => ⟨0, ?_⟩) h0 (by simp [runCalls, h0])
          have : j = 0 := by simpa using hj
          rw [this, h0]
      | fail e =>
        refine ⟨fun _ => ?_, fun _ => .failed 0 e (by simp) h0 (fun j hj => absurd hj (by omega))
          (by simp [runCalls, h0])⟩
        rintro ⟨v, hv, -⟩
        rw [h0] at hv; cases hv
  | pipeMake =>
    show Reports true [.connectPipe] u (runCalls .last u [(.connectPipe, .throws)] 0 0 []) ↔ _
    cases h0 : u 0 with
    | ok v =>
      refine ⟨fun _ => ?_, fun _ => .fine v (fun j hj => ⟨v, ?_⟩) h0 (by simp [runCalls, h0])⟩
      · rintro ⟨e, he⟩; rw [h0] at he; cases he
      · have : j = 0 := by simpa using hj
        rw [this, h0]
    | fail e =>
      refine ⟨fun h => ?_, fun h => absurd ⟨e, h0⟩ h⟩
      simp only [runCalls, h0] at h
      exact absurd h not_reports_threw
  | fileSize | fileResize | fileSyncAll | fileSyncData =>
    cases native
    · first
      | exact std (.inl ⟨rfl, rfl⟩) (fun h => h) (.inr rfl)
      | exact std (.inr ⟨rfl, rfl⟩) (fun h => h) (.inr rfl)
    · first
      | exact std (.inl ⟨rfl, rfl⟩) (fun h => h) (.inl rfl)
      | exact std (.inr ⟨rfl, rfl⟩) (fun h => h) (.inl rfl)
  | _ =>
    first
    | exact std (.inl ⟨rfl, rfl⟩) (fun h => h) (.inl rfl)
    | exact std (.inr ⟨rfl, rfl⟩) (fun h => h) (.inl rfl)

example : ¬ Wrong true (fun _ => .ok 7) .fileSeek ∧
    call true .fileSeek 0 (fun _ => .ok 7) = ⟨[.seek], .value 7⟩ :=
  ⟨fun h => (by obtain ⟨e, he⟩ := h; cases he), by decide⟩

/-- C79 but for seeking in files, making pipes, and for cancelling and releasing files where there
are no native ones. Missing: these, and arguments without meaning; for both it does not hold. -/
theorem C79_partial (native : Bool) (f : Fn) (a : Nat) (u : Nat → PR) (ha : Meant f a)
    (hf : f ≠ .fileSeek ∧ f ≠ .pipeMake ∧ (native = false → f ≠ .fileRelease ∧ f ≠ .fileCancel)) :
    Reports (HasValue f) (Asks native f) u (call native f a u) := by
  rw [C79_exact native f a u ha]
  intro hw
  cases f <;> simp_all [Wrong]

example : call false (.serSet .characterSize) 7 (fun _ => .fail 22) = ⟨[.setSerial .characterSize],
    .error 22⟩ := by decide

/-- Arguments without meaning are never refused by an error: an exception is thrown. -/
theorem C79_arguments (native : Bool) (f : Fn) (a : Nat) (u : Nat → PR) (ha : ¬ Meant f a) :
    call native f a u = ⟨[], .threw⟩ := by
  cases f with
  | serSet o =>
    have : (body native (.serSet o)).accepts a = false := by
      cases o with
      | baudRate => exact absurd trivial ha
      | characterSize =>
        simp only [body, serialAccepts]
        cases h1 : decide (5 ≤ a) <;> cases h2 : decide (a ≤ 8) <;> try rfl
        exact absurd ⟨of_decide_eq_true h1, of_decide_eq_true h2⟩ ha
      | flowControl => exact decide_eq_false ha
      | parity => exact decide_eq_false ha
    show (if (body native (.serSet o)).accepts a then _ else _) = _
    rw [this]
    rfl
  | _ => exact absurd trivial ha

example : ¬ Meant (.serSet .characterSize) 9 := by simp [Meant]

/-- C79 does not hold: a size of characters that does not exist is thrown (serial_port.cpp:54). -/
theorem C79_violated : ¬ C79 := fun h => by
  obtain ⟨e, he⟩ := (h true (.serSet .characterSize) 9 fun _ => .ok 0).2 (by simp [Meant])
  rw [C79_arguments _ _ _ _ (by simp [Meant])] at he
  cases he

/-- Seeking: with native files a failure is thrown, without them the position returned is 0
(stream_file.cpp:46, 110). -/
theorem C79_seek_violated :
    call true .fileSeek 0 (fun _ => .fail 22) = ⟨[.seek], .threw⟩ ∧
    call false .fileSeek 0 (fun _ => .ok 100) = ⟨[.seek], .value 0⟩ := by decide

/-- Releasing a file that is not open succeeds, cancelling does nothing (file.cpp:142-147,
108-111), and a pipe that cannot be made is an exception (pipe.cpp:133). -/
theorem C79_file_violated :
    call false .fileRelease 0 (fun _ => .fail 9) = ⟨[.release], .value (-1)⟩ ∧
    call false .fileCancel 0 (fun _ => .fail 9) = ⟨[], .void⟩ ∧
    call true .pipeMake 0 (fun _ => .fail 24) = ⟨[.connectPipe], .threw⟩ := by decide

end Cobalt.Rep
