import Mathlib.Data.Nat.Bitwise

/-! # Small facts about machine words -/

namespace Verif

theorem pow2_of_and_sub_one {c : Nat} (h0 : 0 < c) (h : c &&& (c - 1) = 0) : ∃ k, c = 2 ^ k := by
  by_contra hc
  have h1 : ¬ c.isPowerOfTwo := hc
  have := Nat.and_sub_one_testBit_log2 (by omega) h1
  rw [h] at this
  simp at this

theorem and_sub_one_of_pow2 (k : Nat) : 2 ^ k &&& (2 ^ k - 1) = 0 := by
  rw [Nat.and_two_pow_sub_one_eq_mod]; simp

end Verif
