import Verif.Ec.Ec
import Mathlib.Data.Nat.Bitwise

/-! # The two word formats obey the same laws -/

namespace Verif.Ec

structure Laws {n : Nat} (F : Fmt n) : Prop where
  vmsb : ∀ w, (F.value w).msb = false
  word : ∀ w v, v.msb = false → (F.value w = v ↔ w = F.unfl v ∨ w = F.fl v)
  flag : ∀ w, F.flagged w = true ↔ w = F.fl (F.value w)
  unfl_ne : ∀ v, v.msb = false → F.flagged (F.unfl v) = false
  clear : ∀ w, F.clear w = F.unfl (F.value w)
  add : ∀ w d, F.value (w + F.amt d) = addMod (F.value w) d
  inc : ∀ w, F.incWakes w = F.flagged w
  fut : ∀ c v, v.msb = false → F.futEq c (F.fl v) = true → F.flagged c = true
  futr : ∀ c, F.futEq c c = true
  init : ∀ v, F.value (F.init v) = BitVec.ofNat n (v.toNat % 2 ^ (n - 1))

/-! ## 32 bits -/

theorem mask32 : ~~~(1#32 <<< 31) = BitVec.ofNat 32 (2 ^ 31 - 1) := by decide
theorem bit32 : (1#32 <<< 31) = BitVec.ofNat 32 (2 ^ 31) := by decide

theorem F32_value (w : BitVec 32) : (F32.value w).toNat = w.toNat % 2 ^ 31 := by
  show (w &&& ~~~(1#32 <<< 31)).toNat = _
  rw [mask32, BitVec.toNat_and, BitVec.toNat_ofNat, Nat.mod_eq_of_lt (by omega : 2 ^ 31 - 1 < 2 ^ 32),
    Nat.and_two_pow_sub_one_eq_mod]

theorem F32_clear (w : BitVec 32) : (F32.clear w).toNat = w.toNat % 2 ^ 31 := by
  show (w &&& ((1#32 <<< 31) - 1)).toNat = _
  rw [show (1#32 <<< 31) - 1 = BitVec.ofNat 32 (2 ^ 31 - 1) by decide, BitVec.toNat_and, BitVec.toNat_ofNat,
    Nat.mod_eq_of_lt (by omega : 2 ^ 31 - 1 < 2 ^ 32), Nat.and_two_pow_sub_one_eq_mod]

theorem F32_fl (v : BitVec 32) (h : v.msb = false) : (F32.fl v).toNat = v.toNat + 2 ^ 31 := by
  show (v ||| (1#32 <<< 31)).toNat = _
  have hv : v.toNat < 2 ^ 31 := by
    rw [BitVec.msb_eq_decide] at h; simpa using h
  rw [bit32, BitVec.toNat_or, BitVec.toNat_ofNat, Nat.mod_eq_of_lt (by omega : 2 ^ 31 < 2 ^ 32),
    Nat.lor_comm]
  have := Nat.two_pow_add_eq_or_of_lt hv 1
  simp only [Nat.mul_one] at this
  omega

theorem F32_flagged (w : BitVec 32) : F32.flagged w = w.msb := by
  show (w &&& (1#32 <<< 31) != 0) = _
  rw [Bool.eq_iff_iff]
  constructor
  · intro h
    simp only [bne_iff_ne, ne_eq] at h
    cases hb : w.msb with
    | true => rfl
    | false =>
      refine absurd ?_ h
      apply BitVec.eq_of_getLsbD_eq
      intro i hi
      rw [bit32]
      simp only [BitVec.getLsbD_and, BitVec.getLsbD_ofNat, Nat.testBit_two_pow]
      by_cases h31 : 31 = i
      · subst h31
        rw [BitVec.msb_eq_getLsbD_last] at hb
        simp at hb
        simp [hb]
      · simp [h31]
  · intro h
    simp only [bne_iff_ne, ne_eq]
    intro h0
    have := congrArg (fun x => x.getLsbD 31) h0
    rw [BitVec.msb_eq_getLsbD_last] at h
    simp at h
    simp [BitVec.getLsbD_and, bit32, h] at this

theorem msb32 (w : BitVec 32) : w.msb = true ↔ 2 ^ 31 ≤ w.toNat := by
  rw [BitVec.msb_eq_decide]; simp

theorem msb32f (w : BitVec 32) : w.msb = false ↔ w.toNat < 2 ^ 31 := by
  rw [BitVec.msb_eq_decide]; simp

/-- The condition `le` of `incl` holds exactly if the word was flagged, lines 636-681: the table in the
header has the wrong OF in its second row, so the don't-care case in fact does not call `ck_ec32_wake`. -/
theorem le_eq (w : BitVec 32) : le w = w.msb := by
  have hw := w.isLt
  rw [Bool.eq_iff_iff, msb32]
  simp only [le, zf, sf, ovf, Bool.or_eq_true, beq_iff_eq, bne_iff_ne, ne_eq]
  rw [Bool.eq_iff_iff, msb32]
  simp only [beq_iff_eq, ← BitVec.toNat_inj, BitVec.toNat_add]
  simp only [show (1 : BitVec 32).toNat = 1 from rfl, show (0 : BitVec 32).toNat = 0 from rfl,
    show (0x7fffffff : BitVec 32).toNat = 2 ^ 31 - 1 from rfl]
  omega

theorem laws32 : Laws F32 where
  vmsb w := by rw [msb32f, F32_value]; omega
  word w v hv := by
    have h1 := F32_fl v hv
    rw [msb32f] at hv
    have hw := w.isLt
    rw [← BitVec.toNat_inj, ← BitVec.toNat_inj, ← BitVec.toNat_inj, F32_value, h1]
    show _ ↔ w.toNat = v.toNat ∨ _
    omega
  flag w := by
    have hv : (F32.value w).msb = false := by rw [msb32f, F32_value]; omega
    have hw := w.isLt
    rw [F32_flagged, msb32, ← BitVec.toNat_inj, F32_fl _ hv, F32_value]
    omega
  unfl_ne v hv := by rw [F32_flagged]; exact hv
  clear w := by
    apply BitVec.eq_of_toNat_eq
    rw [F32_clear]
    show _ = (F32.value w).toNat
    rw [F32_value]
  add w d := by
    apply BitVec.eq_of_toNat_eq
    show (F32.value (w + d)).toNat = _
    rw [F32_value, addMod, BitVec.toNat_ofNat, F32_value, BitVec.toNat_add]
    omega
  inc w := by rw [F32_flagged]; exact le_eq w
  fut c v hv h := by
    have : c = F32.fl v := by simpa [F32] using h
    rw [F32_flagged, msb32, this, F32_fl v hv]
    omega
  futr c := by simp [F32]
  init v := by
    apply BitVec.eq_of_toNat_eq
    have : F32.init v = F32.value v := rfl
    rw [F32_value, this, F32_value, BitVec.toNat_ofNat]
    omega

/-! ## 64 bits -/

theorem F64_value (w : BitVec 64) : (F64.value w).toNat = w.toNat / 2 := by
  show (w >>> 1).toNat = _
  rw [BitVec.toNat_ushiftRight, Nat.shiftRight_eq_div_pow]

theorem msb64f (w : BitVec 64) : w.msb = false ↔ w.toNat < 2 ^ 63 := by
  rw [BitVec.msb_eq_decide]; simp

theorem F64_unfl (v : BitVec 64) (h : v.msb = false) : (F64.unfl v).toNat = 2 * v.toNat := by
  show (v <<< 1).toNat = _
  rw [msb64f] at h
  rw [BitVec.toNat_shiftLeft, Nat.shiftLeft_eq]
  omega

theorem F64_fl (v : BitVec 64) (h : v.msb = false) : (F64.fl v).toNat = 2 * v.toNat + 1 := by
  show (F64.unfl v ||| 1#64).toNat = _
  rw [BitVec.toNat_or, F64_unfl v h]
  have := Nat.two_pow_add_eq_or_of_lt (show 1 < 2 ^ 1 by omega) v.toNat
  simp only [Nat.pow_one] at this
  exact this.symm

theorem F64_flagged (w : BitVec 64) : F64.flagged w = true ↔ w.toNat % 2 = 1 := by
  show ((w &&& 1#64) != 0) = true ↔ _
  rw [bne_iff_ne, ne_eq, ← BitVec.toNat_inj, BitVec.toNat_and]
  have h : (1#64).toNat = 2 ^ 1 - 1 := rfl
  rw [h, Nat.and_two_pow_sub_one_eq_mod]
  simp only [Nat.pow_one, show (0 : BitVec 64).toNat = 0 from rfl]
  omega

theorem F64_clear (w : BitVec 64) : F64.clear w = F64.unfl (F64.value w) := by
  show w &&& ~~~1#64 = (w >>> 1) <<< 1
  apply BitVec.eq_of_getLsbD_eq
  intro i hi
  simp only [BitVec.getLsbD_and, BitVec.getLsbD_not, BitVec.getLsbD_one, BitVec.getLsbD_shiftLeft,
    BitVec.getLsbD_ushiftRight]
  by_cases h0 : i = 0
  · subst h0; simp
  · rw [show 1 + (i - 1) = i by omega]
    simp [hi, h0]

theorem laws64 : Laws F64 where
  vmsb w := by have := w.isLt; rw [msb64f, F64_value]; omega
  word w v hv := by
    have h1 := F64_fl v hv
    have h2 := F64_unfl v hv
    rw [← BitVec.toNat_inj, ← BitVec.toNat_inj, ← BitVec.toNat_inj, F64_value, h1, h2]
    omega
  flag w := by
    have hv : (F64.value w).msb = false := by have := w.isLt; rw [msb64f, F64_value]; omega
    rw [F64_flagged, ← BitVec.toNat_inj, F64_fl _ hv, F64_value]
    omega
  unfl_ne v hv := by
    rw [Bool.eq_false_iff, ne_eq, F64_flagged, F64_unfl v hv]; omega
  clear := F64_clear
  add w d := by
    apply BitVec.eq_of_toNat_eq
    show (F64.value (w + 2 * d)).toNat = _
    rw [F64_value, addMod, BitVec.toNat_ofNat, F64_value, BitVec.toNat_add, BitVec.toNat_mul,
      show (2 : BitVec 64).toNat = 2 from rfl]
    have := w.isLt
    omega
  inc w := rfl
  fut c v hv h := by
    have h1 : c.setWidth 32 = (F64.fl v).setWidth 32 := by simpa [F64] using h
    rw [F64_flagged]
    have h2 := congrArg BitVec.toNat h1
    rw [BitVec.toNat_setWidth, BitVec.toNat_setWidth, F64_fl v hv] at h2
    omega
  futr c := by simp [F64]
  init v := by
    apply BitVec.eq_of_toNat_eq
    show (F64.value (v <<< 1)).toNat = _
    rw [F64_value, BitVec.toNat_shiftLeft, Nat.shiftLeft_eq, BitVec.toNat_ofNat]
    omega

/-- What the futex comparison of the 64-bit count decides: the values agree modulo `2 ^ 31`. -/
theorem fut64 (c v : BitVec 64) (hv : v.msb = false) (h : F64.futEq c (F64.fl v) = true) :
    c.toNat % 2 = 1 ∧ (F64.value c).toNat % 2 ^ 31 = v.toNat % 2 ^ 31 := by
  have h1 : c.setWidth 32 = (F64.fl v).setWidth 32 := by simpa [F64] using h
  have h2 := congrArg BitVec.toNat h1
  rw [BitVec.toNat_setWidth, BitVec.toNat_setWidth, F64_fl v hv] at h2
  rw [F64_value]
  omega

end Verif.Ec
