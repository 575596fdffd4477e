/-!
# `ck_backoff_eb` (C60), `include/ck_backoff.h`
-/

namespace Verif.Backoff

/-- `CK_BACKOFF_CEILING`, line 34. -/
def ceiling : BitVec 32 := (1 <<< 20) - 1

/-- `CK_BACKOFF_INITIALIZER`, line 37. -/
def initializer : BitVec 32 := 1 <<< 9

/-- The delay loop, lines 49-51: `i` runs from its start value up to `c`, one `ck_pr_barrier` each;
`fuel` only bounds the recursion (the loop counter has at most `2^32` values). -/
def spin (c : BitVec 32) : Nat → BitVec 32 → Nat → Option Nat
  | 0, _, _ => none
  | fuel + 1, i, k => if i < c then spin c fuel (i + 1) (k + 1) else some k

/-- `ck_backoff_eb`, lines 44-55: the number of delay iterations, and the new value of `*c`. -/
def eb (c : BitVec 32) : Option Nat × BitVec 32 :=
  (spin c (2 ^ 32) 0 0, c <<< (if c < ceiling then 1 else 0))

/-- `*c` after `k` calls. -/
def after (c : BitVec 32) : Nat → BitVec 32
  | 0 => c
  | k + 1 => (eb (after c k)).2

theorem spin_eq (c : BitVec 32) : ∀ (fuel : Nat) (i : BitVec 32) (k : Nat), i.toNat ≤ c.toNat →
    c.toNat - i.toNat < fuel → spin c fuel i k = some (k + (c.toNat - i.toNat)) := by
  intro fuel
  induction fuel with
  | zero => intro i k _ h; omega
  | succ f ih =>
    intro i k hle hf
    have hc := c.isLt
    rw [spin]
    by_cases h : i < c
    · have hlt : i.toNat < c.toNat := h
      have hi : (i + 1).toNat = i.toNat + 1 := by rw [BitVec.toNat_add]; simp; omega
      rw [if_pos h, ih _ _ (by omega) (by omega), hi]
      congr 1; omega
    · have hge : c.toNat ≤ i.toNat := Nat.le_of_not_lt h
      rw [if_neg h]; congr 1; omega

/-- C60: a call delays by exactly `*c` iterations. -/
theorem eb_delay (c : BitVec 32) : (eb c).1 = some c.toNat := by
  have := spin_eq c (2 ^ 32) 0 0 (by simp) (by simpa using c.isLt)
  simpa [eb] using this

/-- C60: below the ceiling a call doubles the delay (without overflow), otherwise it keeps it. -/
theorem eb_double (c : BitVec 32) :
    (eb c).2.toNat = if c.toNat < ceiling.toNat then 2 * c.toNat else c.toNat := by
  have hcl : ceiling.toNat = 2 ^ 20 - 1 := by decide
  by_cases h : c < ceiling
  · have hlt : c.toNat < ceiling.toNat := h
    simp only [eb, h, if_true, hlt]
    rw [BitVec.toNat_shiftLeft, Nat.shiftLeft_eq]
    omega
  · have hlt : ¬ c.toNat < ceiling.toNat := h
    simp only [eb, h, if_false, hlt]
    simp

/-- C60, any start value and any number of calls: the delay never shrinks, is never zero unless it
started as zero, and stays below twice the ceiling (or below its start value).  The full statement
`after c k ≤ ceiling` is false: see `exceeds_ceiling`. -/
theorem after_bound_partial (c : BitVec 32) (k : Nat) :
    c.toNat ≤ (after c k).toNat ∧ ((after c k).toNat ≤ c.toNat ∨ (after c k).toNat < 2 * ceiling.toNat) := by
  induction k with
  | zero => exact ⟨Nat.le_refl _, .inl (Nat.le_refl _)⟩
  | succ k ih =>
    have := eb_double (after c k)
    rw [after]
    split at this <;> omega

/-- C60, started from a power of two not above `2 ^ 20`: after `k` calls the delay is the start
times `2 ^ k`, capped at `2 ^ 20`. -/
theorem after_pow2_partial (a : Nat) (ha : a ≤ 20) (k : Nat) :
    (after (BitVec.ofNat 32 (2 ^ a)) k).toNat = 2 ^ min 20 (a + k) := by
  have hcl : ceiling.toNat = 2 ^ 20 - 1 := by decide
  induction k with
  | zero =>
    have : 2 ^ a ≤ 2 ^ 20 := Nat.pow_le_pow_right (by omega) ha
    rw [after, BitVec.toNat_ofNat, Nat.mod_eq_of_lt (by omega)]
    congr 1; omega
  | succ k ih =>
    rw [after, eb_double, ih, hcl]
    by_cases h : a + k < 20
    · have : 2 ^ (a + k) ≤ 2 ^ 19 := Nat.pow_le_pow_right (by omega) (by omega)
      rw [show min 20 (a + k) = a + k by omega, show min 20 (a + (k + 1)) = (a + k) + 1 by omega,
        if_pos (by omega), Nat.pow_succ]
      omega
    · rw [show min 20 (a + k) = 20 by omega, show min 20 (a + (k + 1)) = 20 by omega, if_neg (by omega)]

/-- The default start value ends above `CK_BACKOFF_CEILING`: eleven calls give `2 ^ 20`. -/
theorem exceeds_ceiling : ceiling < after initializer 11 := by
  have h := after_pow2_partial 9 (by omega) 11
  have he : initializer = BitVec.ofNat 32 (2 ^ 9) := by decide
  rw [he]
  show ceiling.toNat < _
  rw [h]; decide

end Verif.Backoff
