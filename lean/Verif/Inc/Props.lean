import Verif.Inc.Lemmas

/-!
# C86: the headers of the library can be included together, in any order

A user of a library includes the headers they need. Whatever headers they include, and in whatever
order, the declarations of each of them, and of all the headers it includes in turn, must be there
afterwards, and the compiler must not stumble over one that is missing or there twice.

The headers of this library guarantee it but for two: `io/stream.hpp:8` and
`io/random_access_device.hpp:8` have one guard, so whichever is included first makes the other one
be skipped. `io.hpp` includes both, so it cannot be included at all.
-/

namespace Cobalt.Inc

variable {H G : Type} [DecidableEq H] [DecidableEq G]

/-- `b` is `a`, or is included by it, or by what it includes. -/
inductive Reach (w : World H G) : H → H → Prop where
  | here (a : H) : Reach w a a
  | next {a x b : H} : x ∈ w.before a ∨ x ∈ w.after a → Reach w x b → Reach w a b

/-- What a user who includes `hs` may expect: no error, and all that the headers declare is there. -/
def Right (w : World H G) (hs : List H) : Prop :=
  (unit w hs).bad = false ∧ ∀ h ∈ hs, ∀ b, Reach w h b → b ∈ (unit w hs).known

/-- The property in full: any headers can be included, in any order. -/
def C86 : Prop := ∀ hs : List Hdr, Right lib hs

/-! ### Any headers -/

theorem Reach.trans {w : World H G} {a b c : H} (h : Reach w a b) (k : Reach w b c) :
    Reach w a c := by
  induction h with
  | here => exact k
  | next e _ ih => exact .next e (ih k)

/-- **C86, for any headers.** If includes before the declarations do not go round in circles, a list
of headers can be included exactly if among all the headers it brings in no two have one guard. -/
theorem C86_guards {w : World H G} {r : H → Nat} (ho : Order w r) (hs : List H) :
    Right w hs ↔ ∀ a b, (∃ h ∈ hs, Reach w h a) → (∃ h ∈ hs, Reach w h b) →
      w.guard a = w.guard b → a = b := by
  constructor
  · rintro ⟨_, hk⟩ a b ⟨h, hh, ha⟩ ⟨k, hk', hb⟩ he
    exact (one_unit hs).one a (hk h hh a ha) b (hk k hk' b hb) he
  · intro hd
    have ha : Apart w (fun b => ∃ h ∈ hs, Reach w h b) :=
      ⟨fun a ⟨h, hh, hr⟩ x hx => ⟨h, hh, hr.trans (.next (.inl hx) (.here x))⟩,
        fun a ⟨h, hh, hr⟩ x hx => ⟨h, hh, hr.trans (.next (.inr hx) (.here x))⟩,
        fun a b h1 h2 he => hd a b h1 h2 he⟩
    obtain ⟨f, g⟩ := fine_unit ho ha hs (fun h hh => ⟨h, hh, .here h⟩)
    have hknown : ∀ a, (∃ h ∈ hs, Reach w h a) → w.guard a ∈ (unit w hs).defined →
        a ∈ (unit w hs).known := fun a h1 h2 =>
      (f.got a h1 h2).resolve_right List.not_mem_nil
    refine ⟨f.good, fun h hh b hr => ?_⟩
    have hstart : h ∈ (unit w hs).known := hknown h ⟨h, hh, .here h⟩ (g h hh)
    clear g hh
    induction hr with
    | here => exact hstart
    | @next a x b e _ ih =>
      apply ih
      have hx := (f.full a hstart).resolve_left List.not_mem_nil
      have hR := (f.seen a hstart).1
      rcases e with e | e
      · exact hknown x (ha.before a hR x e) (hx.1 x e)
      · exact hknown x (ha.after a hR x e) (hx.2 x e)

/-! ### The headers of the library -/

/-- The headers of the library stand in an order. -/
theorem lib_order : Order lib rank where
  below h := by cases h <;> decide
  uses h := by cases h <;> decide
  tail h := by cases h <;> decide
  depth h := by cases h <;> decide

/-- The two headers with one guard, and no others. -/
theorem lib_guards (a b : Hdr) (h : guard a = guard b) :
    a = b ∨ (a = .io_stream ∧ b = .io_random_access_device) ∨
      (a = .io_random_access_device ∧ b = .io_stream) := by
  have key : ∀ a : Hdr, a = .io_stream ∨ pick (guard a) = a := by intro a; cases a <;> decide
  have hs : pick (guard .io_stream) = .io_random_access_device := rfl
  rcases key a with rfl | ha <;> rcases key b with rfl | hb
  · exact .inl rfl
  · rw [← h, hs] at hb; exact .inr (.inl ⟨rfl, hb.symm⟩)
  · rw [h, hs] at ha; exact .inr (.inr ⟨ha.symm, rfl⟩)
  · rw [h, hb] at ha; exact .inl ha.symm

/-- **C86, exactly.** Headers can be included together, in the given order or any other, if and only
if they do not bring in both `io/stream.hpp` and `io/random_access_device.hpp`. -/
theorem C86_exact (hs : List Hdr) :
    Right lib hs ↔ ¬ ((∃ h ∈ hs, Reach lib h .io_stream) ∧
      ∃ h ∈ hs, Reach lib h .io_random_access_device) := by
  rw [C86_guards lib_order]
  constructor
  · rintro h ⟨h1, h2⟩
    exact absurd (h _ _ h1 h2 rfl) (by decide)
  · intro h a b ha hb he
    rcases lib_guards a b he with e | ⟨rfl, rfl⟩ | ⟨rfl, rfl⟩
    · exact e
    · exact absurd ⟨ha, hb⟩ h
    · exact absurd ⟨hb, ha⟩ h

/-- A set of headers that is left by no include. -/
theorem Reach.inside {w : World H G} {P : H → Prop}
    (hP : ∀ a, P a → (∀ x ∈ w.before a, P x) ∧ ∀ x ∈ w.after a, P x) {a b : H}
    (h : Reach w a b) (ha : P a) : P b := by
  induction h with
  | here => exact ha
  | next e _ ih => exact ih (e.elim ((hP _ ha).1 _) ((hP _ ha).2 _))

/-- The headers that bring in `io/stream.hpp`. -/
def streams : List Hdr :=
  [.io_, .io_acceptor, .io_pipe, .io_serial_port, .io_ssl, .io_stream, .io_stream_file,
    .io_stream_socket]

/-- The headers that bring in `io/random_access_device.hpp`. -/
def devices : List Hdr := [.io_, .io_random_access_device, .io_random_access_file]

theorem reach_stream (h : Hdr) : Reach lib h .io_stream ↔ h ∈ streams := by
  constructor
  · intro hr
    refine Classical.byContradiction fun hn => ?_
    have := hr.inside (P := fun h => h ∉ streams) (fun a => by cases a <;> decide) hn
    exact this (by decide)
  · intro hm
    have d : ∀ a : Hdr, Hdr.io_stream ∈ before a → Reach lib a .io_stream :=
      fun a h => .next (.inl h) (.here _)
    have e : Reach lib .io_stream_socket .io_stream := d _ (by decide)
    cases h <;> first
      | exact absurd hm (by decide)
      | exact .here _
      | exact d _ (by decide)
      | exact .next (x := .io_stream_socket) (.inl (by decide)) e

theorem reach_device (h : Hdr) : Reach lib h .io_random_access_device ↔ h ∈ devices := by
  constructor
  · intro hr
    refine Classical.byContradiction fun hn => ?_
    have := hr.inside (P := fun h => h ∉ devices) (fun a => by cases a <;> decide) hn
    exact this (by decide)
  · intro hm
    cases h <;> first
      | exact absurd hm (by decide)
      | exact .here _
      | exact .next (.inl (by decide)) (.here _)

/-- **C86, as far as the library guarantees it.** Headers that do not bring in
`io/random_access_device.hpp`, or do not bring in `io/stream.hpp`, can be included together in any
order. What is missing is a header from either list. -/
theorem C86_partial (hs : List Hdr)
    (h : (∀ x ∈ hs, x ∉ streams) ∨ ∀ x ∈ hs, x ∉ devices) : Right lib hs := by
  rw [C86_exact]
  rintro ⟨⟨a, ha, ra⟩, b, hb, rb⟩
  rcases h with h | h
  · exact h a ha ((reach_stream a).mp ra)
  · exact h b hb ((reach_device b).mp rb)

example : Right lib [.all, .io_acceptor, .io_ssl, .io_write, .channel, .impl_channel] :=
  C86_partial _ (.inr (by decide))

example : Right lib [.io_random_access_file, .impl_channel, .d_main, .all, .io_datagram_socket] :=
  C86_partial _ (.inl (by decide))

/-- Alone, every header can be included but one: `io.hpp`. -/
theorem C86_alone (h : Hdr) : Right lib [h] ↔ h ≠ .io_ := by
  rw [C86_exact]
  simp only [List.mem_singleton, exists_eq_left, reach_stream, reach_device]
  cases h <;> decide

/-- **C86 fails.** `#include <boost/cobalt/io.hpp>` does not compile. -/
theorem C86_violated : ¬ C86 := fun h => (C86_alone .io_).mp (h _) rfl

/-- It is an error and not only a missing declaration: `io/random_access_file.hpp:25` derives from
a class that is not declared. -/
theorem C86_io_violated : (unit lib [.io_]).bad = true := by rfl

/-- So does including a pipe and then a file, and a file and then a pipe: `io/pipe.hpp:32` derives
from a class that is not declared. -/
theorem C86_pair_violated :
    (unit lib [.io_pipe, .io_random_access_file]).bad = true ∧
      (unit lib [.io_random_access_file, .io_pipe]).bad = true := ⟨rfl, rfl⟩

/-- **C86, repaired.** With a guard of its own for `io/random_access_device.hpp`, all headers could
be included in any order. -/
theorem C86_own_guard (hs : List Hdr) :
    Right (⟨fun h => if h = .io_random_access_device then none else some (guard h), before, uses,
      after⟩ : World Hdr (Option Guard)) hs := by
  have ho : Order (⟨fun h => if h = .io_random_access_device then none else some (guard h), before,
      uses, after⟩ : World Hdr (Option Guard)) rank :=
    ⟨lib_order.below, lib_order.uses, lib_order.tail, lib_order.depth⟩
  rw [C86_guards ho]
  intro a b _ _ he
  dsimp only at he
  split at he <;> split at he
  · rename_i h1 h2; rw [h1, h2]
  · cases he
  · cases he
  · rename_i h1 h2
    rcases lib_guards a b (by injection he) with e | ⟨_, e⟩ | ⟨e, _⟩
    · exact e
    · exact absurd e h2
    · exact absurd e h1

/-- In a chain of headers that never ends the nesting is too deep, and this is an error. -/
theorem C86_too_deep (k : Nat) : (unit ⟨id, fun n : Nat => [n + 1], fun _ => [], fun _ => []⟩ [k]).bad = true := by
  have key : ∀ n (h : Nat) (s : St Nat Nat), (∀ x, h ≤ x → x ∉ s.defined) →
      (enter ⟨id, fun n : Nat => [n + 1], fun _ => [], fun _ => []⟩ n h s).bad = true := by
    intro n
    induction n with
    | zero => intro h s _; rfl
    | succ n ih =>
      intro h s hs
      have := ih (h + 1) { s with defined := h :: s.defined } (fun x hx hm => by
        rcases List.mem_cons.mp hm with e | e
        · omega
        · exact hs x (by omega) e)
      rw [enter, if_neg (by simpa using hs h (Nat.le_refl _))]
      simp only [List.foldl_cons, List.foldl_nil, declare, id]
      rw [this]; rfl
  unfold unit
  rw [List.foldl_cons, List.foldl_nil]
  exact key _ k _ (fun _ _ h => by cases h)

end Cobalt.Inc
