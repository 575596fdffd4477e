import Verif.Misc.LlSc

/-!
# What the atomic operations compute

Between the load-linked and the store-conditional the operations compute in registers that may be
wider than the object: a 16-bit object is loaded into a 32-bit register, extended with zeros
(ARM, AArch64, ppc) or with its sign (RISC-V `lr.w`), and the low bits are stored back.

* `n` is the width of the object, `w` the width of the register.
* /repo/include/gcc/aarch64/ck_pr_llsc.h lines 100-160 (cas), 194-231 (inc, dec, not), 235-279
  (and, add, or, sub, xor); ck_pr.h lines 191-221 (neg)
* /repo/include/gcc/arm/ck_pr.h lines 210-281, 339-390, 426-462, 467-506
* /repo/include/gcc/ppc64/ck_pr.h lines 238-279, 310-342, 345-379; ppc/ck_pr.h lines 220-288
* /repo/include/gcc/riscv64/ck_pr.h lines 179-232, 291-310, 353-372, 412-451, 466-489

Simplified: the operands of the assembly are in registers extended according to their C type
(zeros for unsigned types, the sign for `short` and `char`), which is what the calling conventions
of ARM ask for and what compilers do.
-/

namespace Verif.LlSc.Reg

open Verif Verif.LlSc

/-- The operations with an operand and those without. -/
inductive Bin | add | sub | and | or | xor
  deriving DecidableEq

inductive Un | inc | dec | not | neg
  deriving DecidableEq

/-- The instructions, with their two source registers. -/
inductive Ins | add | sub | subf | and | or | xor
  deriving DecidableEq

/-- `sub a b` is `a - b`; `subf a b` of ppc ("subtract from") is `b - a`. -/
def exec {w : Nat} : Ins → BitVec w → BitVec w → BitVec w
  | .add, a, b => a + b
  | .sub, a, b => a - b
  | .subf, a, b => b - a
  | .and, a, b => a &&& b
  | .or, a, b => a ||| b
  | .xor, a, b => a ^^^ b

/-- ARM and AArch64: `I old, old, delta` (aarch64/ck_pr_llsc.h lines 235-270,
arm/ck_pr.h lines 467-498). -/
def armIns : Bin → Ins
  | .add => .add | .sub => .sub | .and => .and | .or => .or | .xor => .xor

def armBin {w : Nat} (k : Bin) (old d : BitVec w) : BitVec w := exec (armIns k) old d

/-- ppc and ppc64: `I old, delta, old`, with `subf` for the integer types and `sub` for pointers
(ppc64/ck_pr.h lines 345-374, ppc/ck_pr.h lines 254-283). -/
def ppcIns (ptr : Bool) : Bin → Ins
  | .add => .add | .sub => if ptr then .sub else .subf | .and => .and | .or => .or | .xor => .xor

def ppcBin {w : Nat} (ptr : Bool) (k : Bin) (old d : BitVec w) : BitVec w :=
  exec (ppcIns ptr k) d old

/-- RISC-V: `amoadd`, `amoadd` of the negated operand, `amoand`, `amoor`, `amoxor`
(riscv64/ck_pr.h lines 291-299, 353-361, 466-484). -/
def riscvBin {w : Nat} (k : Bin) (old d : BitVec w) : BitVec w :=
  match k with
  | .add => exec .add old d
  | .sub => exec .add old (-d)
  | .and => exec .and old d
  | .or => exec .or old d
  | .xor => exec .xor old d

/-- `add r, r, #1`, `sub r, r, #1` (`addic r, r, -1` on ppc), `mvn`, `neg`. -/
def un {w : Nat} : Un → BitVec w → BitVec w
  | .inc, x => x + 1
  | .dec, x => x - 1
  | .not, x => ~~~x
  | .neg, x => -x

/-- `addic r, r, -1` of ppc (ppc/ck_pr.h line 237). -/
def ppcDec {w : Nat} (x : BitVec w) : BitVec w := x + (-1)

/-- Load with the extension `sg` (sign or zeros), compute, store the low bits. -/
def rmw {n : Nat} (w : Nat) (sg : Bool) (g : BitVec w → BitVec w) (x : BitVec n) : BitVec n :=
  (g (if sg then x.signExtend w else x.setWidth w)).setWidth n

/-! ## The specification: the operation on `n`-bit integers -/

def specBin {n : Nat} : Bin → BitVec n → BitVec n → BitVec n
  | .add, x, d => x + d
  | .sub, x, d => x - d
  | .and, x, d => x &&& d
  | .or, x, d => x ||| d
  | .xor, x, d => x ^^^ d

def specUn {n : Nat} : Un → BitVec n → BitVec n
  | .inc, x => BitVec.ofNat n (x.toNat + 1)
  | .dec, x => BitVec.ofInt n (x.toInt - 1)
  | .not, x => BitVec.ofInt n (-x.toInt - 1)
  | .neg, x => BitVec.ofInt n (-x.toInt)

theorem low_ext {n w : Nat} (h : n ≤ w) (sg : Bool) (x : BitVec n) :
    (if sg then x.signExtend w else x.setWidth w).setWidth n = x := by
  cases sg
  · simp [BitVec.setWidth_setWidth_of_le _ h]
  · simp only [↓reduceIte]
    ext i hi
    simp only [BitVec.getElem_setWidth, BitVec.getLsbD_signExtend]
    rw [BitVec.getLsbD_eq_getElem hi]
    simp [hi, Nat.lt_of_lt_of_le hi h]

theorem low_sub {n w : Nat} (h : n ≤ w) (a b : BitVec w) :
    (a - b).setWidth n = a.setWidth n - b.setWidth n := by
  rw [BitVec.sub_eq_add_neg, BitVec.sub_eq_add_neg, BitVec.setWidth_add _ _ h,
    BitVec.setWidth_neg_of_le h]

theorem low_exec {n w : Nat} (h : n ≤ w) (i : Ins) (a b : BitVec w) :
    (exec i a b).setWidth n = exec i (a.setWidth n) (b.setWidth n) := by
  cases i
  · exact BitVec.setWidth_add _ _ h
  · exact low_sub h a b
  · exact low_sub h b a
  · exact BitVec.setWidth_and
  · exact BitVec.setWidth_or
  · exact BitVec.setWidth_xor

/-- ARM, AArch64 and RISC-V: the operation on the object is the operation asked for, for every
width of object and register, whatever the unused upper bits of the operand are. -/
theorem bin {n w : Nat} (h : n ≤ w) (sg : Bool) (k : Bin) (x : BitVec n) (d : BitVec w) :
    rmw w sg (fun old => armBin k old d) x = specBin k x (d.setWidth n) ∧
      rmw w sg (fun old => riscvBin k old d) x = specBin k x (d.setWidth n) := by
  constructor
  · cases k <;> simp only [rmw, armBin, armIns, low_exec h, low_ext h] <;> rfl
  · cases k <;> simp only [rmw, riscvBin, low_exec h, low_ext h, BitVec.setWidth_neg_of_le h] <;>
      simp [exec, specBin, BitVec.sub_eq_add_neg]

/-- ppc and ppc64: likewise, except subtraction from a pointer. -/
theorem ppc_partial {n w : Nat} (h : n ≤ w) (ptr : Bool) (k : Bin) (hp : ptr = true → k ≠ .sub)
    (x : BitVec n) (d : BitVec w) :
    rmw w false (fun old => ppcBin ptr k old d) x = specBin k x (d.setWidth n) := by
  cases k <;> cases ptr <;> simp only [rmw, ppcBin, ppcIns, low_exec h, low_ext h] <;>
    first
    | exact absurd rfl (hp rfl)
    | simp [exec, specBin, BitVec.add_comm, BitVec.and_comm, BitVec.or_comm, BitVec.xor_comm]

/-- On ppc and ppc64 `ck_pr_sub_ptr` computes `delta - old`: it subtracts correctly only if the
pointer happens to satisfy `2 * old = 2 * delta`.  The full statement is `ppc_partial` without
`hp`. -/
theorem ppc_sub_ptr_fails {n : Nat} (x d : BitVec n) :
    rmw n false (fun old => ppcBin true .sub old d) x = d - x ∧
      (d - x = specBin .sub x d ↔ x + x = d + d) := by
  constructor
  · simp [rmw, ppcBin, ppcIns, exec]
  · simp only [specBin]
    constructor
    · intro h
      have h1 : d - x + x + d = x - d + x + d := by rw [h]
      rw [BitVec.sub_add_cancel] at h1
      rw [h1, BitVec.add_assoc, BitVec.add_comm x d, ← BitVec.add_assoc, BitVec.sub_add_cancel]
    · intro h
      have h1 : x + x - d - x = d + d - d - x := by rw [h]
      rw [BitVec.add_sub_cancel] at h1
      have h2 : x + x - d - x = x - d := by
        rw [BitVec.sub_eq_add_neg (x + x - d), BitVec.sub_eq_add_neg (x + x), BitVec.add_assoc,
          BitVec.add_comm (-d), ← BitVec.add_assoc, ← BitVec.sub_eq_add_neg (x + x),
          BitVec.add_sub_cancel, BitVec.sub_eq_add_neg]
      rw [← h1, h2]

example : ppcBin true .sub 0x1000#64 8#64 = 0xfffffffffffff008#64 ∧
    specBin .sub 0x1000#64 8#64 = 0xff8#64 := by decide +kernel

theorem ofNat_inc {n : Nat} (x : BitVec n) : x + 1 = BitVec.ofNat n (x.toNat + 1) := by
  apply BitVec.eq_of_toNat_eq; simp [BitVec.toNat_add]

theorem ofInt_dec {n : Nat} (x : BitVec n) : x - 1 = BitVec.ofInt n (x.toInt - 1) := by
  rw [← BitVec.ofInt_toInt (x := x - 1), BitVec.toInt_sub]
  apply BitVec.eq_of_toInt_eq
  simp only [BitVec.toInt_ofInt, Int.bmod_bmod]
  have : ((1 : BitVec n).toInt).bmod (2 ^ n) = (1 : Int).bmod (2 ^ n) := by
    rw [show (1 : BitVec n) = BitVec.ofInt n 1 by simp, BitVec.toInt_ofInt]
    simp
  rw [← Int.sub_bmod_bmod, this, Int.sub_bmod_bmod]

theorem ofInt_neg {n : Nat} (x : BitVec n) : -x = BitVec.ofInt n (-x.toInt) := by
  apply BitVec.eq_of_toInt_eq
  simp [BitVec.toInt_neg, BitVec.toInt_ofInt]

theorem ofInt_not {n : Nat} (x : BitVec n) : ~~~x = BitVec.ofInt n (-x.toInt - 1) := by
  have h : ~~~x = -x - 1 := by
    rw [BitVec.neg_eq_not_add, show (1 : BitVec n) = 1#n from rfl, BitVec.add_sub_cancel]
  rw [h, ofInt_dec, ofInt_neg]
  apply BitVec.eq_of_toInt_eq
  simp [BitVec.toInt_ofInt]

/-- `inc`, `dec`, `not`, `neg` on all architectures: plus one, minus one, complement and negative
of the `n`-bit integer, wrapping. -/
theorem unary {n w : Nat} (h : n ≤ w) (sg : Bool) (k : Un) (x : BitVec n) :
    rmw w sg (un k) x = specUn k x ∧ rmw w sg ppcDec x = specUn .dec x := by
  have h1 : (1 : BitVec w).setWidth n = 1 := by
    apply BitVec.eq_of_toNat_eq
    simp only [BitVec.toNat_setWidth]
    rw [show (1 : BitVec w).toNat = 1 % 2 ^ w by simp, show (1 : BitVec n).toNat = 1 % 2 ^ n by simp]
    exact Nat.mod_mod_of_dvd _ (Nat.pow_dvd_pow 2 h)
  constructor
  · cases k <;> simp only [rmw, un, specUn]
    · rw [BitVec.setWidth_add _ _ h, low_ext h, h1, ofNat_inc]
    · rw [low_sub h, low_ext h, h1, ofInt_dec]
    · rw [BitVec.setWidth_not h, low_ext h, ofInt_not]
    · rw [BitVec.setWidth_neg_of_le h, low_ext h, ofInt_neg]
  · simp only [rmw, ppcDec, specUn]
    rw [BitVec.setWidth_add _ _ h, low_ext h, BitVec.setWidth_neg_of_le h, h1,
      ← BitVec.sub_eq_add_neg, ofInt_dec]

/-! ## Compare-and-swap -/

/-- The loop of compare-and-swap: the loaded register (extended by `sl`) is compared with the
operand (extended by `sc`). -/
def casF {n : Nat} (w : Nat) (sl sc : Bool) (c v : BitVec n) (x : BitVec n) : Option (BitVec n) :=
  if (if sl then x.signExtend w else x.setWidth w) =
      (if sc then c.signExtend w else c.setWidth w) then some v else none

/-- What the function returns on ARM, AArch64 and ppc: `previous == compare` (compared as `n`-bit
integers), together with whether the object was overwritten. -/
def casRes {n : Nat} (w : Nat) (sl sc : Bool) (c v x : BitVec n) : Bool × Option (BitVec n) :=
  (x == c, casF w sl sc c v x)

/-- The specification: overwritten and true if the object holds `c`, else neither. -/
def specCas {n : Nat} (c v x : BitVec n) : Bool × Option (BitVec n) :=
  if x = c then (true, some v) else (false, none)

/-- Compare-and-swap is right if both registers are extended in the same way (unsigned types on
ARM, AArch64 and ppc; RISC-V, where the operand is cast to `int32_t`), if the object is as wide
as the register, and for a `short` or `char` that is not negative. -/
theorem cas_partial {n w : Nat} (h : n ≤ w) (sl sc : Bool) (c v x : BitVec n)
    (hok : sl = sc ∨ n = w ∨ c.msb = false ∧ sl = false) :
    casRes w sl sc c v x = specCas c v x := by
  have key : ((if sl then x.signExtend w else x.setWidth w) =
      (if sc then c.signExtend w else c.setWidth w)) ↔ x = c := by
    constructor
    · intro he
      have := congrArg (BitVec.setWidth n) he
      rwa [low_ext h, low_ext h] at this
    · rintro rfl
      rcases hok with rfl | rfl | ⟨h1, rfl⟩
      · rfl
      · cases sl <;> cases sc <;> simp
      · cases sc
        · rfl
        · simp [BitVec.signExtend_eq_setWidth_of_msb_false h1]
  simp only [casRes, specCas, casF, key]
  by_cases hx : x = c <;> simp [hx]

/-- `ck_pr_cas_short` and (where `char` is signed) `ck_pr_cas_char` on ARMv7 and on AArch64 without
LSE: `ldxrh` extends with zeros, the operand is sign-extended.  With a negative operand the object
is never overwritten, and the function returns true if the object holds the operand: a lock taken
with such a compare-and-swap is taken by everybody.  The full statement is `cas_partial` without
`hok`. -/
theorem cas_negative_fails {n w : Nat} (h : n < w) (c v x : BitVec n) (hc : c.msb = true) :
    casRes w false true c v x = (x == c, none) ∧ casRes w false true c v c = (true, none) ∧
      specCas c v c = (true, some v) := by
  have hne : ∀ y : BitVec n, y.setWidth w ≠ c.signExtend w := by
    intro y he
    have := congrArg BitVec.msb he
    rw [BitVec.msb_signExtend] at this
    simp [BitVec.msb_setWidth, hc, Nat.not_le.2 h, BitVec.getLsbD_of_ge y (w - 1) (by omega)] at this
    omega
  refine ⟨?_, ?_, by simp [specCas]⟩
  · simp [casRes, casF, hne]
  · simp [casRes, casF, hne]

/-- Non-vacuity: −1 as a `short`. -/
example : casRes 32 false true (0xffff : BitVec 16) 5 0xffff = (true, none) ∧
    casRes 32 false false (0xffff : BitVec 16) 5 0xffff = (true, some 5) ∧
    casRes 32 false true (0x7fff : BitVec 16) 5 0x7fff = (true, some 5) := by decide +kernel

/-! ## Compare-and-swap of doubles -/

/-- A pattern that is not a number: exponent all ones, mantissa not zero. -/
def nan (x : BitVec 64) : Bool := (x >>> 52 &&& 0x7ff) == 0x7ff && (x &&& 0xfffffffffffff) != 0

/-- Plus or minus zero. -/
def zero (x : BitVec 64) : Bool := x <<< 1 == 0

/-- `==` on doubles (IEEE 754). -/
def eqD (x y : BitVec 64) : Bool :=
  !nan x && !nan y && ((zero x && zero y) || x == y)

/-- `ck_pr_cas_double[_value]` on AArch64 (ck_pr_llsc.h lines 100-150, ck_pr_lse.h lines 97-129) and
`ck_pr_cas_double_value` on ARMv7 (ck_pr.h lines 210-236): the loop compares bits, the result is
`previous == compare` on doubles. -/
def casD (c v x : BitVec 64) : Bool × Option (BitVec 64) :=
  (eqD x c, casF 64 false false c v x)

theorem cas_double_partial (c v x : BitVec 64) (hn : nan c = false) (hz : zero c = false) :
    casD c v x = specCas c v x := by
  have h := cas_partial (Nat.le_refl 64) false false c v x (.inl rfl)
  simp only [casRes] at h
  rw [← h]
  simp only [casD, eqD, hn, hz, Bool.and_false, Bool.false_or, Bool.not_false, Bool.and_true,
    Prod.mk.injEq, and_true]
  by_cases hx : x = c
  · subst hx; simp [hn]
  · simp [hx]

/-- A compare operand that is not a number: the double is overwritten but false is returned. A
minus zero where plus zero is expected: nothing is overwritten but true is returned. -/
theorem cas_double_fails (v : BitVec 64) :
    (∀ c, nan c = true → casD c v c = (false, some v)) ∧
      casD 0 v 0x8000000000000000 = (true, none) ∧ nan 0x7ff8000000000000 = true := by
  refine ⟨fun c hc => by simp [casD, eqD, hc, casF], ?_, by decide +kernel⟩
  have h1 : eqD 0x8000000000000000#64 0#64 = true := by decide +kernel
  simpa [casD, casF] using h1

/-- Together with `LlSc.atomic`: the operation that `atomic` makes indivisible is the `n`-bit
operation. -/
theorem step_is {n w : Nat} (h : n ≤ w) (k : Bin) (d : BitVec w) (x x' : BitVec n)
    (r : Option (BitVec n)) (x0 : BitVec n) :
    (obj x0).app x (.rmw fun y => some (rmw w false (fun old => armBin k old d) y)) r x' ↔
      r = some x ∧ x' = specBin k x (d.setWidth n) := by
  simp [obj, (bin h false k x d).1]

end Verif.LlSc.Reg
