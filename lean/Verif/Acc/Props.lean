import Verif.Acc.Model
/-!
# Properties of acceptors
-/
namespace Cobalt.Acc

/-! ## Specification -/

/-- What an acceptor should be by what was done with it. -/
structure Want where
  bound : Bool := false
  listening : Bool := false

/-- The answers which are right: `bind` of one that is not bound, `listen` of one that is, and
`accept` of one that listens succeed if the system allows it; the sockets given have a descriptor
of the type of their class. -/
def Right (w : Want) : Ev → Out → Prop
  | .bind ok, o => w.bound = false → ok = true → o = .ok
  | .listen ok, o => w.bound = true → ok = true → o = .ok
  | .accept ty ok, o =>
    (w.listening = true → ok = true → o ≠ .error .badDescriptor ∧ o ≠ .error .invalidArgument) ∧
    (∀ c d, o = .sock c d → c = ty ∧ d = c)

def Want.next (w : Want) (e : Ev) (o : Out) : Want :=
  match e, o with
  | .bind _, .ok => { w with bound := true }
  | .listen _, .ok => { bound := true, listening := true }
  | _, _ => w

def AllRight (w : Want) : List Ev → List Out → Prop
  | e :: es, o :: os => Right w e o ∧ AllRight (w.next e o) es os
  | _, _ => True

def Ctor.want : Ctor → Want
  | .default => {}
  | .endpoint .. => ⟨true, true⟩

/-- **C74**: an acceptor, however made, can be bound if it is not, listens if it is bound, accepts if
it listens, and gives sockets of the right class. -/
def C74 : Prop := ∀ (c : Ctor) s, c.make = some s → ∀ es, AllRight c.want es (run s es).2

/-! ## Lemmas -/

theorem run_closed (es : List Ev) : (run .closed es).1 = .closed ∧
    ∀ o ∈ (run .closed es).2, o = .error .badDescriptor := by
  induction es with
  | nil => exact ⟨rfl, by simp [run]⟩
  | cons e es ih =>
    have : (step .closed e).1 = .closed ∧ (step .closed e).2 = .error .badDescriptor := by
      cases e <;> exact ⟨rfl, rfl⟩
    simp only [run, this.1]
    refine ⟨ih.1, fun o ho => ?_⟩
    rcases List.mem_cons.mp ho with rfl | ho
    · exact this.2
    · exact ih.2 o ho

/-! ## Theorems -/

/-- **C74 is violated**: an acceptor made without an endpoint cannot be bound. There is no way
to open it. -/
theorem C74_violated : ¬ C74 := fun h =>
  absurd ((h .default .closed rfl [.bind true]).1 rfl rfl) (by decide)

/-- In no history does anything succeed with it. -/
theorem C74_default (es : List Ev) : ∀ o ∈ (run .closed es).2, o = .error .badDescriptor :=
  (run_closed es).2

example : (run .closed [.bind true, .listen true, .accept .stream true]).2 =
    [.error .badDescriptor, .error .badDescriptor, .error .badDescriptor] := rfl

/-- `bind` never succeeds with any acceptor. -/
theorem C74_bind (c : Ctor) (s : Sock) (hc : c.make = some s) (es : List Ev) (ok : Bool) :
    (step (run s es).1 (.bind ok)).2 ≠ .ok := by
  cases c with
  | default =>
    cases hc
    rw [(run_closed es).1]; simp [step, Sock.bind, Out.ofErr]
  | endpoint ty b =>
    cases b with
    | true =>
      obtain rfl : Sock.opened ty true true = s := Option.some.inj hc
      have : (run (.opened ty true true) es).1 = .opened ty true true := by
        induction es with
        | nil => rfl
        | cons e es ih =>
          have : (step (.opened ty true true) e).1 = .opened ty true true := by
            cases e with
            | bind ok => rfl
            | listen ok => cases ok <;> rfl
            | accept t ok => cases ok <;> rfl
          simp only [run, this]; exact ih
      rw [this]
      simp [step, Sock.bind, Out.ofErr]
    | false => cases hc

example : (step (run (.opened .stream true true) [.listen true]).1 (.bind true)).2 =
    .error .invalidArgument := rfl

/-- **C74 is violated** by sockets accepted with another protocol: a stream as a sequenced packet
socket. -/
theorem C74_class_violated :
    (run (.opened .stream true true) [.accept .seqPacket true]).2 = [.sock .seqPacket .stream] ∧
    ¬ AllRight ⟨true, true⟩ [.accept .seqPacket true]
      (run (.opened .stream true true) [.accept .seqPacket true]).2 := by
  refine ⟨rfl, fun h => ?_⟩
  have := (h.1.2 .seqPacket .stream rfl).2
  cases this

/-- What an acceptor can be used for. -/
def Ctor.Suits : Ctor → List Ev → Prop
  | .default, es => .bind true ∉ es
  | .endpoint ty _, es => ∀ t, .accept t true ∈ es → t = ty

/-- **C74** exactly: an acceptor made without an endpoint answers right unless it is to be bound, one
made from an endpoint unless a connection is accepted as of another type. -/
theorem C74_exact (c : Ctor) (s : Sock) (hc : c.make = some s) (es : List Ev) :
    AllRight c.want es (run s es).2 ↔ c.Suits es := by
  cases c with
  | default =>
    cases hc
    simp only [Ctor.want, Ctor.Suits]
    induction es with
    | nil => simp [run, AllRight]
    | cons e es ih =>
      have h1 : (step .closed e).1 = .closed := by cases e <;> rfl
      have h2 : (step .closed e).2 = .error .badDescriptor := by cases e <;> rfl
      have h3 : ({} : Want).next e (.error .badDescriptor) = {} := by cases e <;> rfl
      simp only [run, AllRight, h1, h2, h3, ih, List.mem_cons, not_or]
      refine and_congr_left fun _ => ?_
      cases e with
      | bind ok => cases ok <;> simp [Right]
      | listen ok => simp [Right]
      | accept t ok => simp [Right]
  | endpoint ty b =>
    cases b with
    | false => cases hc
    | true =>
    obtain rfl : Sock.opened ty true true = s := Option.some.inj hc
    clear hc
    simp only [Ctor.want, Ctor.Suits]
    induction es with
    | nil => simp [run, AllRight]
    | cons e es ih =>
      have hs : (step (.opened ty true true) e).1 = .opened ty true true := by
        cases e with
        | bind ok => rfl
        | listen ok => cases ok <;> rfl
        | accept t ok => cases ok <;> rfl
      have hw : ∀ o, (⟨true, true⟩ : Want).next e o = ⟨true, true⟩ := by
        intro o; cases e <;> cases o <;> rfl
      simp only [run, AllRight, hs, hw, ih, List.mem_cons]
      cases e with
      | bind ok => simp [Right]
      | listen ok => cases ok <;> simp [Right, step, Sock.listen, Out.ofErr]
      | accept t ok =>
        cases ok with
        | false => simp [Right, step]
        | true =>
          simp only [Right, step, if_true]
          constructor
          · rintro ⟨h, hr⟩ t' (h' | h')
            · cases h'; exact ((h.2 _ _ rfl).2).symm
            · exact hr t' h'
          · intro h
            obtain rfl := h t (.inl rfl)
            exact ⟨⟨fun _ _ => ⟨by simp, by simp⟩, fun c d h => by cases h; exact ⟨rfl, rfl⟩⟩,
              fun t' h' => h t' (.inr h')⟩

/-- **C74** holds for acceptors made from an endpoint, if only sockets of its type are accepted. -/
theorem C74_partial (ty : Ty) (s : Sock) (hs : (Ctor.endpoint ty true).make = some s)
    (es : List Ev) (he : ∀ t ok, Ev.accept t ok ∈ es → t = ty) :
    AllRight ⟨true, true⟩ es (run s es).2 :=
  (C74_exact (.endpoint ty true) s hs es).2 fun t h => he t true h

example : AllRight ⟨true, true⟩ [.accept .stream true, .listen true, .accept .stream false]
    (run (.opened .stream true true)
      [.accept .stream true, .listen true, .accept .stream false]).2 :=
  C74_partial .stream _ rfl _ (by simp)

end Cobalt.Acc
