import Verif.Casc.Lemmas
/-!
# Properties of cancellation through chains of awaits
-/
namespace Cobalt.Casc
open Cobalt.Cst (CT Filter)

/-- Total cancellation. -/
def total : CT := { total := true }
/-- Terminal and total cancellation. -/
def both : CT := { terminal := true, total := true }

/-- **C72**: no signal is used after its coroutine is gone, and a cancellation of a
coroutine is told to the operation at the end of the chain of awaits, once and as the filters on
the way make it, and to nothing else. -/
def Forwards (es : List Ev) : Prop :=
    (({} : St).run es).ub = false ∧
    ∀ r ct depth,
      (∀ n k o, Reaches (({} : St).run es) n r ct k o → n ≤ depth →
        ((({} : St).run es).step (.cancel r ct depth)).got =
          (({} : St).run es).got ++ [(k, o)]) ∧
      ((¬ ∃ n k o, Reaches (({} : St).run es) n r ct k o) →
        ((({} : St).run es).step (.cancel r ct depth)).got = (({} : St).run es).got)

/-- **C72**, for every history. -/
def C72 : Prop := ∀ es, Forwards es

/-- **C72** holds for every history in which no destructor of a parameter of a coroutine that ends
cancels one by which the cancellation comes back to it. -/
theorem C72_partial (es : List Ev) (hs : Safe es) : Forwards es := by
  have h := hs.inv
  refine ⟨h.ub, fun r ct depth => ⟨fun n k o hr hn => ?_, fun hr => ?_⟩⟩
  · have ha := hr.chain.alive h
    simp only [St.step, St.dtor, ha, if_true]
    exact (emit_spec h depth r ct ha).2.2.2 n k o hr hn
  · simp only [St.step, St.dtor]
    split
    · rename_i ha
      rcases (emit_spec h depth r ct ha).2.2.1 with hg | ⟨n, k, o, hr', _⟩
      · exact hg
      · exact absurd ⟨n, k, o, hr'⟩ hr
    · rfl

/-- Nothing is cancelled by destructors. -/
theorem Safe.of_none {es : List Ev} (h : ∀ c d, Ev.ret c (some d) ∉ es) : Safe es := by
  intro a b c r ct depth he
  exact absurd (by rw [he]; simp) (h c (r, ct, depth))

/-- Three coroutines wait for each other in turn, the last of them for operation 7; the second lets
nothing through but total cancellation. -/
def three : List Ev :=
  [.call false, .call true, .call false,
   .reset 1 (fun c => { total := c.total }) Cst.enableTotal,
   .await 0 1, .await 1 2, .awaitOp 2 7]

theorem three_safe : Safe three := Safe.of_none (by intro c d; simp [three])

theorem three_reaches : Reaches (({} : St).run three) 3 0 both 7 total :=
  .coro (c := 1) (o := both) rfl ⟨rfl, by decide⟩
    (.coro (c := 2) (o := total) rfl ⟨rfl, by decide⟩ (.op rfl ⟨rfl, by decide⟩))

example : ((({} : St).run three).step (.cancel 0 both 3)).got = [(7, total)] :=
  ((C72_partial three three_safe).2 0 both 3).1 3 7 total three_reaches (by decide)

/-- The destructor of a parameter may cancel others. -/
example : Safe (three ++ [.call false, .awaitOp 3 8, .opEnds 2, .ret 2 (some (3, both, 9))]) := by
  intro a b c r ct depth he
  have : a = three ++ [.call false, .awaitOp 3 8, .opEnds 2] ∧ c = 2 ∧ r = 3 := by
    simp only [three, List.cons_append, List.nil_append] at he ⊢
    rcases a with _ | ⟨_, _ | ⟨_, _ | ⟨_, _ | ⟨_, _ | ⟨_, _ | ⟨_, _ | ⟨_, _ | ⟨_, _ | ⟨_, _ | ⟨_, _ | ⟨_, _⟩⟩⟩⟩⟩⟩⟩⟩⟩⟩⟩ <;>
      simp at he
    obtain ⟨rfl, rfl, rfl, rfl, rfl, rfl, rfl, rfl, rfl, rfl, ⟨rfl, rfl, _⟩, _⟩ := he
    exact ⟨rfl, rfl, rfl⟩
  obtain ⟨rfl, rfl, rfl⟩ := this
  intro n ct' _ h0 ht
  cases ht with
  | next hw _ _ => cases hw

/-- **C72 is violated**: the destructor of a parameter cancels the awaiting coroutine, whose slot
still refers to the signal in the frame which is being destroyed. -/
theorem C72_violated : ¬ C72 := fun h =>
  absurd (h [.call false, .call false, .await 0 1, .ret 1 (some (0, total, 2))]).1 (by decide)

/-- **C72**, exactly: after a history in which nothing went wrong, a coroutine that ends while a
destructor of a parameter cancels has its signal used if and only if the cancellation comes
to it through an await. -/
theorem C72_exact (es : List Ev) (hs : Safe es) (c r : Nat) (ct : CT) (depth : Nat) :
    ((({} : St).run es).step (.ret c (some (r, ct, depth)))).ub = true ↔
      (({} : St).run es).runs c = true ∧ ((({} : St).run es).co r).alive = true ∧
        ∃ n ct', n < depth ∧ 0 < n ∧ Through (({} : St).run es) n r ct c ct' :=
  ret_ub hs.inv c r ct depth

/-- **C72**, all on the way know: every coroutine on the way to the operation has as its
cancellation what its filter makes of the type that arrives. -/
theorem C72_told (es : List Ev) (hs : Safe es) {n r k : Nat} {ct o : CT}
    (hr : Reaches (({} : St).run es) n r ct k o) {depth : Nat} (hn : n ≤ depth)
    {m q : Nat} {ct' : CT} (ht : Through (({} : St).run es) m r ct q ct') :
    (((({} : St).run es).step (.cancel r ct depth)).co q).cancelled =
      ((({} : St).run es).co q).inF ct' := by
  have h := hs.inv
  have ha := hr.chain.alive h
  simp only [St.step, St.dtor, ha, if_true]
  exact emit_through h hr depth hn ht

example : (((({} : St).run three).step (.cancel 0 both 3)).co 1).cancelled = total :=
  C72_told three three_safe three_reaches (by decide)
    (.next (c := 1) (o := both) rfl ⟨rfl, by decide⟩ .here)

/-- **C72**, nobody else does: a coroutine that is not on the chain from the cancelled one to the
operation is not touched. -/
theorem C72_others (es : List Ev) (hs : Safe es) {n r k : Nat} (hc : Chain (({} : St).run es) n r k)
    (ct : CT) (depth : Nat) {q : Nat} (hq : ∀ m, Chain (({} : St).run es) m q k → n < m) :
    (((({} : St).run es).step (.cancel r ct depth)).co q).cancelled =
      ((({} : St).run es).co q).cancelled := by
  have h := hs.inv
  have ha := hc.alive h
  simp only [St.step, St.dtor, ha, if_true]
  exact emit_others h hc depth hq

/-- Cancelling the second does not reach the first. -/
example : (((({} : St).run three).step (.cancel 1 both 3)).co 0).cancelled = .none_ :=
  C72_others three three_safe (.coro (n := 1) (c := 2) rfl (.op rfl)) both 3
    (fun m hm => by have := hm.unique three_reaches.chain; omega)

/-- **C72**, without filters of its own: if no coroutine changes its filters, every cancellation of
one at the start of a chain arrives at its end unchanged. -/
theorem C72_default (es : List Ev) (hs : Safe es) (he : ∀ e ∈ es, ∀ p i o, e ≠ .reset p i o) {n r k : Nat}
    (hc : Chain (({} : St).run es) n r k) {ct : CT} (hct : ct ≠ .none_) {depth : Nat}
    (hn : n ≤ depth) :
    ((({} : St).run es).step (.cancel r ct depth)).got = (({} : St).run es).got ++ [(k, ct)] :=
  ((C72_partial es hs).2 r ct depth).1 n k ct
    (Plain.reaches (Plain.run (s := {}) (fun _ => ⟨rfl, rfl⟩) he) hc hct) hn

example :
    ((({} : St).run [.call false, .call false, .await 0 1, .awaitOp 1 7]).step
      (.cancel 0 both 5)).got = [(7, both)] :=
  C72_default [.call false, .call false, .await 0 1, .awaitOp 1 7] (Safe.of_none (by simp))
    (by intro e he p i o; simp at he; rcases he with rfl | rfl | rfl | rfl <;> simp)
    (.coro (n := 1) (c := 1) rfl (.op rfl)) (by decide) (by decide)

/-- After the awaits are over, by an interruption or because the other has ended, nothing
arrives there. -/
example :
    ((({} : St).run (three ++ [.interrupt 0])).step (.cancel 0 both 5)).got = [] ∧
    ((({} : St).run (three ++ [.opEnds 2, .ret 2 none])).step (.cancel 0 both 5)).got = [] ∧
    ((({} : St).run (three ++ [.opEnds 2, .ret 2 none, .awaitOp 1 8, .cancel 0 both 5])).got =
      [(8, total)]) := ⟨rfl, rfl, rfl⟩

end Cobalt.Casc
