import Verif.Fork.Ends
/-! Property C112: coroutines that start others and await them compute what they would compute one after the other. -/
namespace Cobalt.Fork
open Prom (Out)

/-- **C112**: nothing undefined happens, no coroutine is cancelled by the destruction of its promise, none is destroyed
while it waits, and no exception escapes. -/
theorem C112_safe (N : Prog) (hN : N.proper) (a : Nat) (es : List Ev) :
    (run N a es).prom.ub = false ∧ (∀ c, (run N a es).prom.signals c = 0) ∧ (run N a es).prom.killed = [] ∧
    ∀ c f, (run N a es).prom.frame c = some f → f.stuck = false := by
  obtain ⟨ph, -, t⟩ := FI.run hN a es
  refine ⟨t.ub, t.signals, t.killed, fun c f hf => ?_⟩
  rw [t.frame c] at hf
  cases h : ph c <;> rw [h] at hf <;> cases hf <;> rfl

/-- **C112**: whatever the executor does, what happens to a coroutine is what happens to it if every coroutine it awaits is
run by itself. -/
theorem C112_sound (N : Prog) (hN : N.proper) (a : Nat) (es : List Ev) (c : Nat) :
    Hist N ((run N a es).arg c) ((run N a es).hist c) := by
  obtain ⟨ph, i, -⟩ := FI.run hN a es
  exact i.hist c

/-- **C112**: a coroutine that has ended has ended with what it should. -/
theorem C112_result (N : Prog) (hN : N.proper) (a : Nat) (es : List Ev) (c : Nat) (o : Out)
    (h : (run N a es).pos c = .ended o) : Ends N ((run N a es).arg c) o := by
  obtain ⟨ph, i, -⟩ := FI.run hN a es
  exact ⟨_, i.hist c, i.ended c o h⟩

/-- **C112**: and its promise holds that, if it was not awaited yet. -/
theorem C112_held (N : Prog) (hN : N.proper) (a : Nat) (es : List Ev) (o : Out) (h : (run N a es).pos 0 = .ended o) :
    ∃ R, (run N a es).prom.recv 0 = some R ∧ R.ready = true ∧
      match o with
      | .val v => R.exc = none ∧ R.result = some (some v)
      | .exc e => R.exc = some (.user e) := by
  obtain ⟨ph, i, t⟩ := FI.run hN a es
  have h1 := (i.fin 0 o).2 h
  have h2 : ph 0 = .over o := by
    have h1 : (ph 0).out = some o := h1
    rcases i.root with hr | ⟨o', hr⟩
    · have hr : ph 0 = .runs := hr
      rw [hr] at h1; cases h1
    · have hr : ph 0 = .over o' := hr
      rw [hr] at h1 ⊢
      cases h1; rfl
  refine ⟨full o (base 0), by rw [t.recv 0, h2]; rfl, ?_⟩
  cases o with
  | val v => exact ⟨rfl, rfl, rfl⟩
  | exc e => exact ⟨rfl, rfl⟩

/-- **C112**: the outcome does not depend on the executor. -/
theorem C112_unique (N : Prog) (hN : N.proper) (a : Nat) (es es' : List Ev) (o o' : Out)
    (h : (run N a es).pos 0 = .ended o) (h' : (run N a es').pos 0 = .ended o') : o = o' := by
  have e : ∀ es, (run N a es).arg 0 = a := fun es => by
    obtain ⟨ph, i, -⟩ := FI.run hN a es
    exact i.arg0
  have h1 := C112_result N hN a es 0 o h
  have h2 := C112_result N hN a es' 0 o' h'
  rw [e] at h1 h2
  exact h1.det h2

/-- **C112**: when nothing can happen any more, all coroutines have ended: none waits for ever. No frame is left, and no
promise but that of the first coroutine. -/
theorem C112_rest (N : Prog) (hN : N.proper) (a : Nat) (es : List Ev) (hr : (run N a es).rest) :
    (∀ c, c < (run N a es).next → ∃ o, (run N a es).pos c = .ended o) ∧
    (∀ c, (run N a es).prom.frame c = none) ∧ (∀ c, c ≠ 0 → (run N a es).prom.recv c = none) := by
  have fi := FI.run hN a es
  have h1 := rest_ended hN fi hr
  obtain ⟨ph, i, t⟩ := fi
  generalize run N a es = s at *
  have hgone : ∀ c, c ≠ 0 → c < s.next → ∃ o, ph c = .gone o := by
    intro c hc hl
    have ho := i.own c (Nat.pos_of_ne_zero hc) hl
    have hl' := (i.par _ _ ho).2.1
    obtain ⟨k, hk⟩ := List.getElem?_of_mem ho
    obtain ⟨o, ho⟩ := h1 (s.par c) (by have : (s.g ph).par c = s.par c := rfl; omega)
    exact (i.view _ k c hk).1 ⟨o, ho⟩
  have hun : ∀ c, ¬ c < s.next → ph c = .unborn := fun c hc =>
    Classical.byContradiction fun h => hc ((i.alive c).1 h)
  refine ⟨h1, fun c => ?_, fun c hc => ?_⟩
  · rw [t.frame c]
    by_cases hl : c < s.next
    · obtain ⟨o, ho⟩ := h1 c hl
      have h2 : (ph c).out = some o := (i.fin c o).2 ho
      cases h : ph c <;> rw [h] at h2 <;> first | rfl | cases h2
    · rw [hun c hl]; rfl
  · rw [t.recv c]
    by_cases hl : c < s.next
    · obtain ⟨o, ho⟩ := hgone c hc hl
      rw [ho]; rfl
    · rw [hun c hl]; rfl

/-- **C112**: if running the coroutines by themselves comes to an end, then so does every history, after boundedly many
steps, and with that outcome. -/
theorem C112_ends (N : Prog) (hN : N.proper) (a : Nat) (o : Out) (h : Ends N a o) :
    (∃ m, ∀ es, (St.init a).usefuls N es → es.length ≤ m) ∧
    ∀ es, ∃ more, (run N a (es ++ more)).rest ∧ (run N a (es ++ more)).pos 0 = .ended o := by
  obtain ⟨κ, hκ⟩ := cost_exists hN
  have ht : Term N a := by obtain ⟨H, h1, h2⟩ := h; exact ⟨H, h1, o, h2⟩
  refine ⟨⟨_, fun es hu => usefuls_bound hN hκ ht (FI.init N a) es hu⟩, fun es => ?_⟩
  obtain ⟨more, hm⟩ := reaches hN hκ ht es
  refine ⟨more, hm, ?_⟩
  have fi := FI.run hN a (es ++ more)
  obtain ⟨ph, i, -⟩ := fi
  obtain ⟨o', ho'⟩ := (C112_rest N hN a _ hm).1 0 i.pos0
  have h1 := C112_result N hN a _ 0 o' ho'
  have h2 : (run N a (es ++ more)).arg 0 = a := i.arg0
  rw [h2] at h1
  rw [ho', h1.det h]

/-- **C112**: and conversely. -/
theorem C112_ends_conv (N : Prog) (hN : N.proper) (a : Nat) (es : List Ev) (hr : (run N a es).rest) :
    ∃ o, (run N a es).pos 0 = .ended o ∧ Ends N a o := by
  obtain ⟨ph, i, -⟩ := FI.run hN a es
  obtain ⟨o, ho⟩ := (C112_rest N hN a _ hr).1 0 i.pos0
  have h1 := C112_result N hN a _ 0 o ho
  have h2 : (run N a es).arg 0 = a := i.arg0
  rw [h2] at h1
  exact ⟨o, ho, h1⟩

/-! ## Example: Fibonacci numbers -/

/-- `fib(n)`: for `n < 2` it waits for a timer and returns `n`; else it starts `fib(n - 1)` and `fib(n - 2)`, awaits the
second and then the first, and returns the sum. -/
def fib : Prog where
  act := fun n h =>
    if n < 2 then (match h with | [] => .op n | _ => .fin (.val n))
    else match h with
      | [] => .start (n - 1)
      | [_] => .start (n - 2)
      | [_, _] => .await 1
      | [_, _, _] => .await 0
      | [_, _, .val x, .val y] => .fin (.val (x + y))
      | _ => .fin (.exc 0)
  op := fun x => x

theorem fib_done (n : Nat) (hn : ¬ n < 2) (r x y : Res) (a b : Res) :
    done (fib.act n) [a] = [.start (n - 1)] ∧ done (fib.act n) [a, b] = [.start (n - 1), .start (n - 2)] ∧
    done (fib.act n) [a, b, x] = [.start (n - 1), .start (n - 2), .await 1] ∧
    done (fib.act n) [a, b, x, y] = [.start (n - 1), .start (n - 2), .await 1, .await 0] := by
  simp [done, List.range_succ, fib, hn]

theorem fib_proper : fib.proper := by
  constructor
  · intro n h k _ ha
    by_cases hn : n < 2
    · cases h <;> simp [fib, hn] at ha
    · match h with
      | [] => simp [fib, hn] at ha
      | [_] => simp [fib, hn] at ha
      | [a, b] =>
        simp [fib, hn] at ha; subst ha
        rw [(fib_done n hn .bad .bad .bad a b).2.1]; simp [starts]
      | [a, b, c] =>
        simp [fib, hn] at ha; subst ha
        rw [(fib_done n hn .bad c .bad a b).2.2.1]; simp [starts]
      | _ :: _ :: _ :: _ :: _ => simp only [fib, if_neg hn] at ha; split at ha <;> simp_all
  · intro n h k _ ha
    by_cases hn : n < 2
    · cases h <;> simp [fib, hn] at ha
    · match h with
      | [] => simp [fib, hn] at ha
      | [_] => simp [fib, hn] at ha
      | [a, b] =>
        simp [fib, hn] at ha; subst ha
        rw [(fib_done n hn .bad .bad .bad a b).2.1]; simp
      | [a, b, c] =>
        simp [fib, hn] at ha; subst ha
        rw [(fib_done n hn .bad c .bad a b).2.2.1]; simp
      | _ :: _ :: _ :: _ :: _ => simp only [fib, if_neg hn] at ha; split at ha <;> simp_all
  · intro n h o hh ha k hk
    by_cases hn : n < 2
    · exfalso
      have : ∀ h, starts (done (fib.act n) h) = [] := by
        intro h
        induction h using snoc_ind with
        | h0 => rfl
        | h1 h x ih =>
          rw [done_snoc, starts_append, ih]
          cases h <;> simp [fib, hn, starts]
      rw [this] at hk
      simp at hk
    · match h, hh with
      | [], _ => simp [fib, hn] at ha
      | [_], _ => simp [fib, hn] at ha
      | [_, _], _ => simp [fib, hn] at ha
      | [_, _, _], _ => simp [fib, hn] at ha
      | [a, b, c, d], _ =>
        rw [(fib_done n hn .bad c d a b).2.2.2] at hk ⊢
        simp [starts] at hk
        have : k = 0 ∨ k = 1 := by omega
        rcases this with rfl | rfl <;> simp
      | a :: b :: c :: d :: e :: h, hh =>
        exfalso
        have h1 := (hh.okay (l := [a, b, c, d]) (x := e) ⟨h, rfl⟩).1
        unfold okay at h1
        have : ∃ o, fib.act n [a, b, c, d] = .fin o := by
          simp only [fib, if_neg hn]
          split <;> first | exact ⟨_, rfl⟩ | simp_all
        obtain ⟨o, ho⟩ := this
        rw [ho] at h1
        exact h1

def fibSpec : Nat → Nat
  | 0 => 0
  | 1 => 1
  | n + 2 => fibSpec (n + 1) + fibSpec n

theorem fib_ends (n : Nat) : Ends fib n (.val (fibSpec n)) := by
  induction n using fibSpec.induct with
  | case1 => exact ⟨[.val 0], .op (h := []) 0 (.nil _) rfl, rfl⟩
  | case2 => exact ⟨[.val 1], .op (h := []) 1 (.nil _) rfl, rfl⟩
  | case3 n ih1 ih2 =>
    have hn : ¬ n + 2 < 2 := by omega
    obtain ⟨h1, e1, f1⟩ := ih1
    obtain ⟨h2, e2, f2⟩ := ih2
    have a0 : Hist fib (n + 2) [.started] := .start (h := []) (n + 1) (.nil _) (by simp [fib])
    have a1 : Hist fib (n + 2) [.started, .started] := .start (h := [.started]) n a0 (by simp [fib])
    have a2 : Hist fib (n + 2) [.started, .started, .val (fibSpec n)] :=
      .await (h := [.started, .started]) 1 a1 (by simp [fib])
        (by rw [(fib_done (n + 2) hn .bad .bad .bad _ _).2.1]; rfl) e2 f2
    have a3 : Hist fib (n + 2) [.started, .started, .val (fibSpec n), .val (fibSpec (n + 1))] :=
      .await (h := [.started, .started, .val (fibSpec n)]) 0 a2 (by simp [fib])
        (by rw [(fib_done (n + 2) hn .bad _ .bad _ _).2.2.1]; rfl) e1 f1
    refine ⟨_, a3, ?_⟩
    have : fibSpec (n + 2) = fibSpec (n + 1) + fibSpec n := rfl
    rw [this, Nat.add_comm (fibSpec (n + 1))]
    simp only [fib]
    rw [if_neg (by omega)]

/-- Whatever the executor does, in the end the promise of `fib(n)` has the `n`-th Fibonacci number. -/
example (n : Nat) (es : List Ev) : ∃ more, (run fib n (es ++ more)).pos 0 = .ended (.val (fibSpec n)) := by
  obtain ⟨more, -, h⟩ := (C112_ends fib fib_proper n _ (fib_ends n)).2 es
  exact ⟨more, h⟩

/-- One history of `fib(2)`. -/
example : (run fib 2 [.go 0, .go 1, .go 0, .go 0, .go 2, .complete 1, .complete 2, .go 2, .go 0, .go 1, .go 0]).pos 0 =
    .ended (.val 1) := by decide

/-! ## What is needed -/

/-- A coroutine that ends without awaiting what it started. -/
def hasty : Prog where
  act := fun a h => match a, h with
    | 0, [] => .start 1
    | 0, _ => .fin (.val 0)
    | _, [] => .op 0
    | _, _ => .fin (.val 1)
  op := fun _ => 0

/-- **C112** needs that a coroutine awaits all it has started: else the promise is destroyed with the others and cancels
the coroutine. -/
theorem C112_await_needed : (run hasty 0 [.go 0, .go 1, .go 0]).prom.signals 1 = 1 := by decide

/-- A coroutine that starts another and awaits it. -/
def single : Prog where
  act := fun a h => match a, h with
    | 0, [] => .start 1
    | 0, [_] => .await 0
    | 0, _ => .fin (.val 0)
    | _, [] => .op 0
    | _, _ => .fin (.val 7)
  op := fun _ => 0

/-- **C112** needs that a promise is awaited once: after the await the promise is still ready, and its value was moved
from. (The second await itself is in `Verif.Prom`, C25.) -/
theorem C112_once_needed : (run single 0 [.go 0, .go 1, .complete 1, .go 1, .go 0]).hist 0 = [.started, .val 7] ∧
    ((run single 0 [.go 0, .go 1, .complete 1, .go 1, .go 0]).prom.recv 1).map (fun R => (R.ready, R.result)) =
      some (true, some none) := by decide

end Cobalt.Fork
