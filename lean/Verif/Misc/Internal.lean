import Mathlib.Data.Nat.Log

/-!
# Integer helpers (C58), `src/ck_internal.h`
-/

namespace Verif.Internal

/-! ## Model -/

/-- A C comparison result as an unsigned integer. -/
def ofC {w : Nat} (b : Bool) : BitVec w := if b then 1#w else 0#w

/-- `ck_internal_log`, lines 38-48 (masks: lines 32-36). -/
def log (v : BitVec 32) : BitVec 32 :=
  let r := ofC ((v &&& 0xAAAAAAAA#32) != 0)
  let r := r ||| (ofC ((v &&& 0xFFFF0000#32) != 0) <<< 4)
  let r := r ||| (ofC ((v &&& 0xFF00FF00#32) != 0) <<< 3)
  let r := r ||| (ofC ((v &&& 0xF0F0F0F0#32) != 0) <<< 2)
  r ||| (ofC ((v &&& 0xCCCCCCCC#32) != 0) <<< 1)

/-- `ck_internal_power_2`, lines 50-61. -/
def power2 (v : BitVec 32) : BitVec 32 :=
  let v := v - 1
  let v := v ||| (v >>> 1)
  let v := v ||| (v >>> 2)
  let v := v ||| (v >>> 4)
  let v := v ||| (v >>> 8)
  let v := v ||| (v >>> 16)
  v + 1

/-- `ck_internal_max`, `ck_internal_max_64`, `ck_internal_max_32`, lines 63-82, for a word of `w`
bits.  `-(x < y)` is the `int` 0 or -1 converted to the unsigned type. -/
def max {w : Nat} (x y : BitVec w) : BitVec w := x ^^^ ((x ^^^ y) &&& (-(ofC (x < y))))

/-! ## Specification -/

/-- `p` is the least power of two that is not below `v`. -/
def LeastPow2 (v p : Nat) : Prop :=
  (∃ k, p = 2 ^ k) ∧ v ≤ p ∧ ∀ k, v ≤ 2 ^ k → p ≤ 2 ^ k

/-! ## Proofs -/

/-- The smearing steps of `power2`. -/
def smear (v : BitVec 32) : BitVec 32 :=
  let v := v ||| (v >>> 1)
  let v := v ||| (v >>> 2)
  let v := v ||| (v >>> 4)
  let v := v ||| (v >>> 8)
  v ||| (v >>> 16)

theorem power2_eq (v : BitVec 32) : power2 v = smear (v - 1) + 1 := rfl

theorem smear_bit (v : BitVec 32) (i : Nat) :
    (smear v).getLsbD i = true ↔ ∃ j, j < 32 ∧ v.getLsbD (i + j) = true := by
  have h1 : ∀ (x : BitVec 32) (k m : Nat), (∀ i, x.getLsbD i = true ↔ ∃ j, j < k ∧ v.getLsbD (i + j) = true) →
      k = m → ∀ i, (x ||| (x >>> k)).getLsbD i = true ↔ ∃ j, j < k + m ∧ v.getLsbD (i + j) = true := by
    intro x k m hx hm i
    subst hm
    rw [BitVec.getLsbD_or, BitVec.getLsbD_ushiftRight, Bool.or_eq_true, hx, hx]
    constructor
    · rintro (⟨j, h, e⟩ | ⟨j, h, e⟩)
      · exact ⟨j, by omega, e⟩
      · exact ⟨k + j, by omega, by rw [← e]; congr 1; omega⟩
    · rintro ⟨j, h, e⟩
      by_cases hj : j < k
      · exact .inl ⟨j, hj, e⟩
      · exact .inr ⟨j - k, by omega, by rw [← e]; congr 1; omega⟩
  have h0 : ∀ i, v.getLsbD i = true ↔ ∃ j, j < 1 ∧ v.getLsbD (i + j) = true := by
    intro i
    constructor
    · intro h; exact ⟨0, by omega, h⟩
    · rintro ⟨j, h, e⟩
      obtain rfl : j = 0 := by omega
      exact e
  exact h1 _ 16 16 (h1 _ 8 8 (h1 _ 4 4 (h1 _ 2 2 (h1 _ 1 1 h0 rfl) rfl) rfl) rfl) rfl i

theorem smear_eq (v : BitVec 32) (hv : v ≠ 0) : (smear v).toNat = 2 ^ (Nat.log2 v.toNat + 1) - 1 := by
  have hv' : v.toNat ≠ 0 := by
    intro h; exact hv (BitVec.eq_of_toNat_eq (by simpa using h))
  have hlt : Nat.log2 v.toNat < 32 := (Nat.log2_lt hv').2 v.isLt
  apply Nat.eq_of_testBit_eq
  intro i
  rw [Nat.testBit_two_pow_sub_one]
  have hb := smear_bit v i
  rw [Bool.eq_iff_iff, BitVec.testBit_toNat, hb]
  simp only [decide_eq_true_eq]
  constructor
  · rintro ⟨j, _, e⟩
    rw [← BitVec.testBit_toNat] at e
    by_contra hc
    have : v.toNat < 2 ^ (i + j) := Nat.lt_of_lt_of_le ((Nat.log2_lt hv').1 (by omega)) (Nat.pow_le_pow_right (by omega) (Nat.le_refl _))
    rw [Nat.testBit_lt_two_pow this] at e
    cases e
  · intro h
    refine ⟨Nat.log2 v.toNat - i, by omega, ?_⟩
    rw [← BitVec.testBit_toNat, show i + (Nat.log2 v.toNat - i) = Nat.log2 v.toNat by omega]
    exact Nat.testBit_log2 hv'

/-- C58: `ck_internal_log` of a power of two is its exponent. -/
theorem log_pow2 (k : Nat) (hk : k < 32) : log (BitVec.ofNat 32 (2 ^ k)) = BitVec.ofNat 32 k := by
  have : ∀ k : Fin 32, log (BitVec.ofNat 32 (2 ^ k.val)) = BitVec.ofNat 32 k.val := by decide +kernel
  exact this ⟨k, hk⟩

/-- C58: `ck_internal_power_2` is the least power of two not below its argument. -/
theorem power2_least (v : BitVec 32) (h1 : 1 ≤ v.toNat) (h2 : v.toNat ≤ 2 ^ 31) :
    LeastPow2 v.toNat (power2 v).toNat := by
  have hsub : (v - 1).toNat = v.toNat - 1 := by
    rw [BitVec.toNat_sub]; simp; omega
  rw [power2_eq]
  by_cases h0 : v - 1 = 0
  · have hv : v = 1 := by
      have := congrArg BitVec.toNat h0
      rw [hsub] at this
      apply BitVec.eq_of_toNat_eq
      simp at this ⊢; omega
    subst hv
    refine ⟨⟨0, by decide⟩, by decide, fun k _ => ?_⟩
    rw [show (smear (1 - 1) + 1).toNat = 1 by decide]
    exact Nat.one_le_two_pow
  · have hne : v.toNat - 1 ≠ 0 := by
      intro h; apply h0; apply BitVec.eq_of_toNat_eq; rw [hsub, h]; rfl
    have hs := smear_eq _ h0
    rw [hsub] at hs
    have hlog : Nat.log2 (v.toNat - 1) < 31 := (Nat.log2_lt hne).2 (by omega)
    have hp : 2 ^ (Nat.log2 (v.toNat - 1) + 1) ≤ 2 ^ 31 := Nat.pow_le_pow_right (by omega) (by omega)
    have hpos : 1 ≤ 2 ^ (Nat.log2 (v.toNat - 1) + 1) := Nat.one_le_two_pow
    have hr : (smear (v - 1) + 1).toNat = 2 ^ (Nat.log2 (v.toNat - 1) + 1) := by
      rw [BitVec.toNat_add, hs]; simp; omega
    rw [hr]
    refine ⟨⟨_, rfl⟩, ?_, fun k hk => ?_⟩
    · have := Nat.lt_log2_self (n := v.toNat - 1); omega
    · apply Nat.pow_le_pow_right (by omega)
      have : Nat.log2 (v.toNat - 1) < k := (Nat.log2_lt hne).2 (by omega)
      omega

/-- C58, outside that range the result is 0: there is no 32-bit answer, or the argument is 0. -/
theorem power2_overflow (v : BitVec 32) (h : v.toNat = 0 ∨ 2 ^ 31 < v.toNat) : power2 v = 0 := by
  have hlt := v.isLt
  have hsub : 2 ^ 31 ≤ (v - 1).toNat ∧ (v - 1).toNat < 2 ^ 32 := by
    rw [BitVec.toNat_sub]; simp; omega
  have h0 : v - 1 ≠ 0 := by intro e; rw [e] at hsub; simp at hsub
  have hne : (v - 1).toNat ≠ 0 := by omega
  have hs := smear_eq _ h0
  have h1 : Nat.log2 (v - 1).toNat < 32 := (Nat.log2_lt hne).2 hsub.2
  have h2 : 31 ≤ Nat.log2 (v - 1).toNat := (Nat.le_log2 hne).2 hsub.1
  rw [show Nat.log2 (v - 1).toNat = 31 by omega] at hs
  rw [power2_eq]
  apply BitVec.eq_of_toNat_eq
  rw [BitVec.toNat_add, hs]; simp

/-- C58: the `max` helpers, for every word width. -/
theorem max_eq {w : Nat} (x y : BitVec w) : (max x y).toNat = Nat.max x.toNat y.toNat := by
  unfold max
  by_cases h : x < y
  · have hlt : x.toNat < y.toNat := h
    rw [show ofC (w := w) (decide (x < y)) = 1#w by simp [ofC, h], BitVec.neg_one_eq_allOnes]
    rw [BitVec.and_allOnes, ← BitVec.xor_assoc, BitVec.xor_self, BitVec.zero_xor]
    simp only [Nat.max_def]; split <;> omega
  · have hle : y.toNat ≤ x.toNat := Nat.le_of_not_lt h
    rw [show ofC (w := w) (decide (x < y)) = 0#w by simp [ofC, h]]
    simp only [BitVec.neg_zero, BitVec.and_zero, BitVec.xor_zero]
    simp only [Nat.max_def]; split <;> omega

/-- The number of rounds `ck_internal_log(ck_internal_power_2(n))` used by the dissemination and
tournament barriers: the least `k` with `n ≤ 2 ^ k`. -/
theorem log_power2 (v : BitVec 32) (h1 : 1 ≤ v.toNat) (h2 : v.toNat ≤ 2 ^ 31) :
    v.toNat ≤ 2 ^ (log (power2 v)).toNat ∧ ∀ k, v.toNat ≤ 2 ^ k → (log (power2 v)).toNat ≤ k := by
  obtain ⟨⟨m, hm⟩, hle, hmin⟩ := power2_least v h1 h2
  have hm31 : 2 ^ m ≤ 2 ^ 31 := by rw [← hm]; exact hmin 31 h2
  have hm' : m < 32 := by have := (Nat.pow_le_pow_iff_right (a := 2) (by omega)).1 hm31; omega
  have he : power2 v = BitVec.ofNat 32 (2 ^ m) := by
    apply BitVec.eq_of_toNat_eq; rw [hm]; simp; omega
  have hl : (log (power2 v)).toNat = m := by
    rw [he, log_pow2 m hm']; simp; omega
  rw [hl]
  refine ⟨by rw [← hm]; exact hle, fun k hk => ?_⟩
  have := hmin k hk
  rw [hm] at this
  exact (Nat.pow_le_pow_iff_right (a := 2) (by omega)).1 this

example : (power2 1000, log (power2 1000), max (7#64) 9#64) = (1024, 10, 9) := by decide

end Verif.Internal
