import Verif.Ctx.Layout
/-!
# C108: The frame and the stack of a stackful coroutine do not overlap, and a failure leaves nothing behind

Full statement: whatever block the stack allocator gives, the frame lies in it, is aligned, and the stack of the fiber is all
of the block that is below the frame; and if making the coroutine fails, nothing that was made for it remains.
-/
namespace Cobalt.Ctx

/-- The frame, `fsz` bytes at `p`, lies in the block, is aligned, and the stack begins where the block does and ends at the
frame. -/
def Fits (sp size fsz al p sz : Nat) : Prop :=
  p % al = 0 ∧ sp - size ≤ p ∧ p + fsz ≤ sp ∧ sz ≤ p ∧ p - sz = sp - size

theorem wsub_le {w a b : Nat} (ha : a < w) (h : b ≤ a) : wsub w a b = a - b := by
  unfold wsub
  have h1 : a + w - b = (a - b) + w := by omega
  rw [h1, Nat.add_mod_right, Nat.mod_eq_of_lt (by omega)]

theorem wsub_lt {w a b : Nat} (hb : b < w) (h : a < b) : wsub w a b = a + w - b := by
  unfold wsub
  exact Nat.mod_eq_of_lt (by omega)

/-- Exactly: all is well if and only if the block has room for the frame and what is lost to its alignment. -/
theorem C108_layout_exact {w sp size fsz al : Nat} (hs : size ≤ sp) (hw : sp < w) (hf : fsz < w) :
    Fits sp size fsz al (place w sp size fsz al).1 (place w sp size fsz al).2 ↔ fsz + (sp - fsz) % al ≤ size := by
  unfold place Fits
  rcases Nat.lt_or_ge sp fsz with h | h
  · -- the frame is larger than what is below `sp`
    have hz : wsub w sp fsz = sp + w - fsz := wsub_lt hf h
    have hm : (sp + w - fsz) % al ≤ sp + w - fsz := Nat.mod_le ..
    constructor
    · intro hfit
      exfalso
      dsimp only at hfit
      rw [hz] at hfit
      split at hfit
      · obtain ⟨_, _, h3, _⟩ := hfit
        dsimp only at h3
        have hlt : sp + w - fsz < w := by omega
        rw [wsub_le hlt hm] at h3
        -- it lies above the block, but for what the alignment takes away, which is less
        rcases Nat.lt_or_ge (sp + w - fsz - (sp + w - fsz) % al + fsz) (sp + 1) with h5 | h5
        · have h6 : w ≤ (sp + w - fsz) % al := by omega
          omega
        · omega
      · obtain ⟨_, _, h3, _⟩ := hfit
        dsimp only at h3
        omega
    · intro hr
      exfalso
      omega
  · have hz : wsub w sp fsz = sp - fsz := wsub_le hw h
    have hm : (sp - fsz) % al ≤ sp - fsz := Nat.mod_le ..
    have hlt : sp - fsz < w := by omega
    dsimp only
    rw [hz]
    by_cases hd : (sp - fsz) % al = 0
    · rw [if_neg (by simpa using hd)]
      dsimp only
      rw [hd]
      constructor
      · rintro ⟨_, h2, _⟩; omega
      · intro hr
        have : wsub w size fsz = size - fsz := wsub_le (by omega) (by omega)
        rw [this]
        refine ⟨?_, ?_, ?_, ?_, ?_⟩ <;> omega
    · rw [if_pos hd]
      dsimp only
      rw [wsub_le hlt hm]
      constructor
      · rintro ⟨_, h2, _⟩; omega
      · intro hr
        have h1 : wsub w size fsz = size - fsz := wsub_le (by omega) (by omega)
        rw [h1, wsub_le (by omega) (by omega)]
        refine ⟨?_, by omega, by omega, by omega, by omega⟩
        have := Nat.div_add_mod (sp - fsz) al
        have h2 : sp - fsz - (sp - fsz) % al = al * ((sp - fsz) / al) := by omega
        rw [h2]
        exact Nat.mul_mod_right ..

/-- A block of 64 KiB and a frame of 200 bytes, aligned to 16. -/
example : place (2 ^ 64) 0x7f0000011000 0x10000 200 16 = (0x7f0000010f30, 0xff30) ∧
    200 + (0x7f0000011000 - 200) % 16 ≤ 0x10000 := by decide

/-- A block too small for the frame: what is said to be the stack is almost all of the memory. -/
theorem C108_small_violated :
    place (2 ^ 64) 0x7f0000001000 0x100 0x180 16 = (0x7f0000000e80, 2 ^ 64 - 0x80) ∧
    ¬ Fits 0x7f0000001000 0x100 0x180 16 (place (2 ^ 64) 0x7f0000001000 0x100 0x180 16).1 (place (2 ^ 64) 0x7f0000001000 0x100 0x180 16).2 := by
  refine ⟨by decide, ?_⟩
  rw [C108_layout_exact (by decide) (by decide) (by decide)]
  decide

/-- No more than the alignment less one is lost, so that much more than the frame is enough. -/
theorem C108_layout_partial {w sp size fsz al : Nat} (hs : size ≤ sp) (hw : sp < w) (ha : 0 < al) (hroom : fsz + (al - 1) ≤ size) :
    Fits sp size fsz al (place w sp size fsz al).1 (place w sp size fsz al).2 := by
  rw [C108_layout_exact hs hw (by omega)]
  have := Nat.mod_lt (sp - fsz) ha
  omega

/-- What is given back is what was allocated. -/
theorem C108_given_back {w b size : Nat} (h : b + size ≤ w) (hb : b < w) (hs : size < w) :
    deallocated w (allocated w b size) = (b, size) := by
  unfold deallocated allocated
  dsimp only
  rcases Nat.lt_or_ge (b + size) w with h1 | h1
  · rw [Nat.mod_eq_of_lt h1, wsub_le h1 (by omega)]
    congr 1; omega
  · have : b + size = w := by omega
    rw [this, Nat.mod_self]
    rcases Nat.eq_zero_or_pos size with h0 | h0
    · omega
    · rw [wsub_lt hs h0]
      congr 1; omega

example : deallocated (2 ^ 64) (allocated (2 ^ 64) 0x1000 0x10000) = (0x1000, 0x10000) := by decide

/-! ## Failure -/

/-- Exactly: a failure leaves nothing behind if and only if it is the allocation that fails, or it is the start and the return
object destroys the coroutine. -/
theorem C108_failure_exact (owns : Bool) (bad : Mk) :
    makeAll owns (some bad) = [] ↔ bad = .alloc ∨ (bad = .start ∧ owns = true) := by
  cases owns <;> cases bad <;> decide

/-- What is left otherwise. The stack is leaked whatever the return object does, until the fiber has it. -/
theorem C108_leak_violated (owns : Bool) {bad : Mk} (h : bad = .promise ∨ bad = .object ∨ bad = .args ∨ bad = .fiber) :
    .stack ∈ makeAll owns (some bad) := by
  rcases h with h | h | h | h <;> subst h <;> cases owns <;> decide

/-- If nothing fails, there is a promise, the return object and the fiber with the stack. -/
theorem C108_made (owns : Bool) : makeAll owns none = [.promise, .object, .fiber] := by cases owns <;> decide

end Cobalt.Ctx
