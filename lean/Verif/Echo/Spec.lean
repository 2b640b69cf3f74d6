import Verif.Echo.Model
/-!
# Specification of C129: a session of the echo server sends back what it receives, and ends when it is told to
-/
namespace Cobalt.Echo

/-- The session has returned. -/
def Over (s : St) : Prop := ∃ w, s.ph = .over w

/-- What was sent back is what was sent, from the beginning. -/
def Faithful (s : St) : Prop := s.out <+: s.sent

/-- A session that ends because the client has finished has sent everything back. -/
def Whole (s : St) : Prop := s.ph = .over .eof → s.out = s.sent

/-- A session that has been cancelled comes to its end if only the executor runs, whatever the client does not do. -/
def Stops (cap : Nat) (s : St) : Prop := s.cancelled = true → ∃ n, Over (s.steps cap (List.replicate n .run))

/-- C129. -/
def C129 : Prop := ∀ (cap : Nat) (es : List Ev), 0 < cap →
  Faithful (exec cap es) ∧ Whole (exec cap es) ∧ Stops cap (exec cap es)

/-- The session waits for the client to take what is left of an answer. -/
def Held (s : St) : Prop := ∃ b bs, s.ph = .writing (b :: bs) ∨ s.ph = .wrote (b :: bs)

/-- What the session has read and not sent back. -/
def St.held (s : St) : List Nat := match s.ph with
  | .read bs => bs
  | .writing bs => bs
  | .wrote bs => bs
  | _ => []

/-- Events of the kernel, without failures, and of the executor. -/
def Ev.works : Ev → Bool
  | .recv _ => true
  | .accept _ => true
  | .run => true
  | _ => false

/-- How many of the events `es` do something. -/
def St.useful (cap : Nat) (s : St) : List Ev → Nat
  | [] => 0
  | e :: es => (if s.step cap e = s then 0 else 1) + (s.step cap e).useful cap es

/-- The kernel takes what is left of an answer, `n + 1` bytes at a time. -/
def taking (n : Nat) : Nat → List Ev
  | 0 => []
  | k + 1 => .accept n :: .run :: taking n k

end Cobalt.Echo
