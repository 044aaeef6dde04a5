/-!
# File type bits

The highest four of sixteen mode bits are the file type (`stat.S_IFMT`).
-/

namespace Verif

/-- The number in the file type bits. -/
def typeBits (mode : Nat) : Nat := mode / 4096 % 16

theorem and_fmt (m : Nat) : m &&& 0xF000 = typeBits m * 4096 := by
  unfold typeBits
  rw [show (4096 : Nat) = 2 ^ 12 from rfl, show (16 : Nat) = 2 ^ 4 from rfl, ← Nat.shiftRight_eq_div_pow, ← Nat.shiftLeft_eq]
  apply Nat.eq_of_testBit_eq
  intro i
  rw [Nat.testBit_and, Nat.testBit_shiftLeft, Nat.testBit_mod_two_pow, Nat.testBit_shiftRight,
    show (0xF000 : Nat) = (2 ^ 4 - 1) <<< 12 from rfl, Nat.testBit_shiftLeft, Nat.testBit_two_pow_sub_one]
  by_cases h : 12 ≤ i
  · simp only [h, decide_true, Bool.true_and]
    rw [show 12 + (i - 12) = i from by omega, Bool.and_comm]
  · simp [h]

/-- Setting type bits in a mode that has none. -/
theorem typeBits_or (m t : Nat) (h : m < 4096) (ht : t < 16) : typeBits (m ||| t * 4096) = t := by
  unfold typeBits
  rw [show (4096 : Nat) = 2 ^ 12 from rfl, ← Nat.shiftRight_eq_div_pow, Nat.shiftRight_or_distrib,
    Nat.shiftRight_eq_div_pow, Nat.shiftRight_eq_div_pow, Nat.div_eq_of_lt h, Nat.mul_div_cancel _ (by decide), Nat.zero_or]
  omega

end Verif
