import Verif.Core.Lin
import Verif.Core.Tactic

/-!
# The compare-and-swap loops behind the portable atomic operations (C59), `include/ck_pr.h`

`CK_PR_BIN` 222-237, `CK_PR_BTX` 491-503, `CK_PR_UNARY` 624-630, `CK_PR_UNARY_Z` 632-646,
`CK_PR_N` 905-920, `CK_PR_N_Z` 922-938, `CK_PR_FAA` 1110-1125, `CK_PR_FAS` 1127-1140.  They all are

    previous = load(target);
    while (cas_value(target, previous, E(previous), &previous) == false) ;
    return G(previous);

where a successful `cas_value` leaves `previous` unchanged and a failing one sets it to the value
found.  One word of `w` bits (`w` is a parameter: 8, 16, 32, 64), any number of threads.  Not
modelled: the `double` variants.
-/

namespace Verif.CasLoop

open Verif Verif.Lin

/-- The operations of the fallback layer, with their operands. -/
inductive Op (w : Nat)
  | add (v : BitVec w) | sub (v : BitVec w) | and (v : BitVec w) | or (v : BitVec w)
  | xor (v : BitVec w)
  | btc (o : Fin w) | btr (o : Fin w) | bts (o : Fin w)
  | inc | dec | incZ | decZ | not | neg | negZ
  | faa (v : BitVec w) | fas (v : BitVec w)
  deriving DecidableEq

inductive Res (w : Nat)
  | unit
  | flag (b : Bool)
  | word (v : BitVec w)
  deriving DecidableEq

variable {w n : Nat}

/-- The update expression `E(previous)` of each operation: the operators `P` (and `R` for the bit
operations) passed to the macros, e.g. lines 405-425, 587-597, 820-837, 1052-1057. -/
def expr : Op w → BitVec w → BitVec w
  | .add v, p => p + v
  | .sub v, p => p - v
  | .and v, p => p &&& v
  | .or v, p => p ||| v
  | .xor v, p => p ^^^ v
  | .btc o, p => p ^^^ (1#w <<< o.val)
  | .btr o, p => p &&& ~~~(1#w <<< o.val)
  | .bts o, p => p ||| (1#w <<< o.val)
  | .inc, p => p + 1#w
  | .dec, p => p - 1#w
  | .incZ, p => p + 1#w
  | .decZ, p => p - 1#w
  | .not, p => ~~~p
  | .neg, p => -p
  | .negZ, p => -p
  | .faa v, p => p + v
  | .fas v, _ => v

/-- The return expression `G(previous)`.  `Z` of `CK_PR_UNARY_Z` is the all-ones word for `inc`
(lines 670, 698, 741, 797, 825, 853, 881; not line 769, see `inc_ptr_zero_wrong`) and 1 for `dec`. -/
def out : Op w → BitVec w → Res w
  | .btc o, p | .btr o, p | .bts o, p => .flag ((p >>> o.val) &&& 1#w != 0#w)
  | .incZ, p => .flag (p == BitVec.allOnes w)
  | .decZ, p => .flag (p == 1#w)
  | .negZ, p => .flag (p == 0#w)
  | .faa _, p | .fas _, p => .word p
  | _, _ => .unit

inductive PC (w : Nat)
  | idle
  | load (o : Op w)
  | cas (o : Op w) (p : BitVec w)
  | ret (r : Res w)

structure St (w n : Nat) where
  x : BitVec w
  th : Fin n → PC w

inductive Act (w n : Nat)
  | call (t : Fin n) (o : Op w)
  | run (t : Fin n)
  | ret (t : Fin n)

def step (s : St w n) : Act w n → Option (St w n)
  | .call t o => match s.th t with
    | .idle => some { s with th := upd s.th t (.load o) }
    | _ => none
  | .run t => match s.th t with
    | .load o => some { s with th := upd s.th t (.cas o s.x) }
    | .cas o p =>
      if s.x = p then some { x := expr o p, th := upd s.th t (.ret (out o p)) }
      else some { s with th := upd s.th t (.cas o s.x) }
    | _ => none
  | .ret t => match s.th t with
    | .ret _ => some { s with th := upd s.th t .idle }
    | _ => none

def sys (w n : Nat) : Sys (St w n) (Act w n) :=
  { init := fun s => ∀ t, s.th t = .idle, step := step }

/-- The visible calls and returns. -/
def obs (s : St w n) : Act w n → Option (Ev (Fin n) (Op w) (Res w))
  | .call t o => some (.call t o)
  | .run _ => none
  | .ret t => match s.th t with
    | .ret r => some (.ret t r)
    | _ => none

/-! ## Specification: one indivisible update

The new word and the result are described by arithmetic modulo `2 ^ w` and bit by bit. -/

/-- Bit `i` of a word. -/
def bit (x : BitVec w) (i : Fin w) : Bool := x.toNat.testBit i

/-- `x'` differs from `x` in bit `o` only, where it has `b`. -/
def SetBit (x x' : BitVec w) (o : Fin w) (b : Bool) : Prop :=
  ∀ i, bit x' i = if i = o then b else bit x i

def Spec (x : BitVec w) : Op w → Res w → BitVec w → Prop
  | .add v, r, x' => x'.toNat = (x.toNat + v.toNat) % 2 ^ w ∧ r = .unit
  | .sub v, r, x' => (x'.toNat + v.toNat) % 2 ^ w = x.toNat ∧ r = .unit
  | .and v, r, x' => (∀ i, bit x' i = (bit x i && bit v i)) ∧ r = .unit
  | .or v, r, x' => (∀ i, bit x' i = (bit x i || bit v i)) ∧ r = .unit
  | .xor v, r, x' => (∀ i, bit x' i = (bit x i != bit v i)) ∧ r = .unit
  | .btc o, r, x' => SetBit x x' o (!bit x o) ∧ r = .flag (bit x o)
  | .btr o, r, x' => SetBit x x' o false ∧ r = .flag (bit x o)
  | .bts o, r, x' => SetBit x x' o true ∧ r = .flag (bit x o)
  | .inc, r, x' => x'.toNat = (x.toNat + 1) % 2 ^ w ∧ r = .unit
  | .dec, r, x' => (x'.toNat + 1) % 2 ^ w = x.toNat ∧ r = .unit
  | .incZ, r, x' => x'.toNat = (x.toNat + 1) % 2 ^ w ∧ r = .flag (x'.toNat == 0)
  | .decZ, r, x' => (x'.toNat + 1) % 2 ^ w = x.toNat ∧ r = .flag (x'.toNat == 0)
  | .not, r, x' => (∀ i, bit x' i = !bit x i) ∧ r = .unit
  | .neg, r, x' => (x'.toNat + x.toNat) % 2 ^ w = 0 ∧ r = .unit
  | .negZ, r, x' => (x'.toNat + x.toNat) % 2 ^ w = 0 ∧ r = .flag (x'.toNat == 0)
  | .faa v, r, x' => x'.toNat = (x.toNat + v.toNat) % 2 ^ w ∧ r = .word x
  | .fas v, r, x' => x' = v ∧ r = .word x

/-- The sequential object: a word that may start with any value. -/
def obj (w : Nat) : Obj (Op w) (Res w) (BitVec w) := { init := fun _ => True, app := Spec }

/-! ## Proofs -/

theorem bit_eq (x : BitVec w) (i : Fin w) : bit x i = x.getLsbD i := by
  simp [bit, BitVec.testBit_toNat]

theorem flag_bit (p : BitVec w) (o : Fin w) : ((p >>> o.val) &&& 1#w != 0#w) = bit p o := by
  rw [bit_eq]
  have ho := o.isLt
  cases hb : p.getLsbD o
  · have : (p >>> o.val) &&& 1#w = 0#w := by
      apply BitVec.eq_of_getLsbD_eq
      intro i hi
      simp only [BitVec.getLsbD_and, BitVec.getLsbD_ushiftRight, BitVec.getLsbD_one]
      by_cases h0 : i = 0
      · subst h0; rw [Nat.add_zero, hb]; simp
      · simp [h0]
    simp [this]
  · have : (p >>> o.val) &&& 1#w ≠ 0#w := by
      intro e
      have := congrArg (fun z => z.getLsbD 0) e
      simp only [BitVec.getLsbD_and, BitVec.getLsbD_ushiftRight, BitVec.getLsbD_one] at this
      simp [hb] at this
      omega
    simpa using this

theorem shl_bit (o i : Fin w) : (1#w <<< o.val).getLsbD i = decide (i = o) := by
  have := i.isLt
  rw [BitVec.getLsbD_shiftLeft, BitVec.getLsbD_one]
  simp only [Fin.ext_iff]
  by_cases h : i.val = o.val
  · simp [h]; omega
  · simp [h]; omega

theorem sub_add (p v : BitVec w) : ((p - v).toNat + v.toNat) % 2 ^ w = p.toNat := by
  rw [← BitVec.toNat_add, BitVec.sub_add_cancel]

theorem one_toNat (h : 0 < w) : (1#w).toNat = 1 := by
  rw [BitVec.toNat_ofNat]; exact Nat.mod_eq_of_lt (Nat.one_lt_two_pow (by omega))

theorem expr_spec (hw : 0 < w) (o : Op w) (p : BitVec w) : Spec p o (out o p) (expr o p) := by
  have h1 := one_toNat hw
  have hp := p.isLt
  have hinc : (p + 1#w).toNat = (p.toNat + 1) % 2 ^ w := by rw [BitVec.toNat_add, h1]
  have hdec : ((p - 1#w).toNat + 1) % 2 ^ w = p.toNat := by
    have := sub_add p 1#w; rwa [h1] at this
  have hneg : -p + p = 0#w := BitVec.add_left_neg p
  have hz : ∀ x : BitVec w, (x.toNat == 0) = (x == 0#w) := by
    intro x; rw [Bool.eq_iff_iff]; simp [BitVec.toNat_eq]
  cases o <;> simp only [Spec, expr, out, SetBit, flag_bit, BitVec.toNat_add, sub_add, hinc, hdec,
    hz, bit_eq, BitVec.getLsbD_and, BitVec.getLsbD_or, BitVec.getLsbD_xor, BitVec.getLsbD_not,
    shl_bit, true_and, and_true, Fin.is_lt, decide_true]
  case and => exact fun _ => trivial
  case or => exact fun _ => trivial
  case xor => intro i; cases p.getLsbD i <;> simp
  case btc o => intro i; by_cases h : i = o <;> simp [h]
  case btr o => intro i; by_cases h : i = o <;> simp [h]
  case bts o => intro i; by_cases h : i = o <;> simp [h]
  case incZ =>
    refine congrArg Res.flag ?_
    rw [Bool.eq_iff_iff]; simp only [beq_iff_eq, BitVec.toNat_eq, BitVec.toNat_allOnes]
    have := Nat.one_lt_two_pow (n := w) (by omega)
    constructor
    · intro e; rw [e, Nat.sub_add_cancel (by omega), Nat.mod_self]
    · intro e
      by_cases h : p.toNat + 1 < 2 ^ w
      · rw [Nat.mod_eq_of_lt h] at e; omega
      · omega
  case decZ =>
    congr 1
    rw [Bool.eq_iff_iff]; simp only [beq_iff_eq]
    constructor
    · rintro rfl; simp
    · intro e
      have := congrArg (· + 1#w) e
      simp only [BitVec.sub_add_cancel] at this
      simpa using this
  case not => intro i; simp
  case neg => rw [← BitVec.toNat_add, hneg]; rfl
  case negZ =>
    constructor
    · rw [← BitVec.toNat_add, hneg]; rfl
    · congr 1; rw [Bool.eq_iff_iff]; simp

/-- What the canonical automaton sees of a thread. -/
def view : PC w → TS (Op w) (Res w)
  | .idle => .idle
  | .load o => .pend o
  | .cas o _ => .pend o
  | .ret r => .done r

/-- C59: every history of the fallback operations is a history of indivisible updates. -/
theorem linearizable (hw : 0 < w) : Linearizable (sys w n) obs (obj w) := by
  refine linearizable_of_sim (fun s α => α = { x := s.x, th := fun t => view (s.th t) }) ?_ ?_
  · intro s h0
    exact ⟨s.x, trivial, by congr; funext t; rw [h0 t]; rfl⟩
  · rintro s a s' α - rfl hs
    refine ⟨_, ?_, rfl⟩
    cases a <;> simp only [sys, step] at hs
    case call t o =>
      split at hs <;> cases hs
      next hp => exact .call' (by simp [hp, view]) (by simp only [upd_comp]; rfl)
    case run t =>
      split at hs
      · next o hp =>
        cases hs
        exact .skip (by simp only; rw [upd_comp_same]; simp [hp, view])
      · next o p hp =>
        split at hs <;> cases hs
        · next hx =>
          refine .lin' (o := o) (r := out o p) (x' := expr o p) (t := t) (by simp [hp, view]) ?_ (by simp only [upd_comp]; rfl)
          simp only [hx]; exact expr_spec hw o p
        · exact .skip (by simp only; rw [upd_comp_same]; simp [hp, view])
      · cases hs
    case ret t =>
      split at hs <;> cases hs
      next r hp =>
        simp only [obs, hp]
        exact .ret' (by simp [hp, view]) (by simp only [upd_comp]; rfl)

/-- C59, progress: a retry means another update has happened since the word was last read; an
undisturbed attempt succeeds. -/
theorem undisturbed {s : St w n} {t : Fin n} {o : Op w} {p : BitVec w} (h : s.th t = .cas o p)
    (hx : s.x = p) : (sys w n).step s (.run t) = some { x := expr o p, th := upd s.th t (.ret (out o p)) } := by
  simp [sys, step, h, hx]

/-- `ck_pr_inc_ptr_is_zero` (line 769) passes `UINT_MAX` as the wrap value of a 64-bit `uintptr_t`:
it reports zero when the pointer becomes `2 ^ 32` and misses the real wrap. -/
def incPtrZero (p : BitVec 64) : BitVec 64 × Bool := (p + 1, p == BitVec.setWidth 64 (BitVec.allOnes 32))

theorem inc_ptr_zero_wrong :
    (∃ p, (incPtrZero p).2 = true ∧ (incPtrZero p).1 ≠ 0) ∧
    (∃ p, (incPtrZero p).2 = false ∧ (incPtrZero p).1 = 0) := by
  exact ⟨⟨0xFFFFFFFF, by decide⟩, ⟨BitVec.allOnes 64, by decide⟩⟩

/-- C61: exactly at the other values the report is right. -/
theorem inc_ptr_zero_partial (p : BitVec 64) :
    ((incPtrZero p).2 = true ↔ (incPtrZero p).1 = 0) ↔ p ≠ 0xFFFFFFFF#64 ∧ p ≠ BitVec.allOnes 64 := by
  have hz : (incPtrZero p).1 = 0 ↔ p = BitVec.allOnes 64 := by
    simp only [incPtrZero]
    constructor
    · intro e
      have := congrArg (· - 1#64) e
      simpa [BitVec.add_sub_cancel] using this
    · rintro rfl; decide
  have hf : (incPtrZero p).2 = true ↔ p = 0xFFFFFFFF#64 := by
    simp only [incPtrZero, beq_iff_eq]
    rw [show BitVec.setWidth 64 (BitVec.allOnes 32) = 0xFFFFFFFF#64 by decide]
  rw [hz, hf]
  have hne : (0xFFFFFFFF#64) ≠ BitVec.allOnes 64 := by decide
  constructor
  · intro h
    exact ⟨fun e => hne (e ▸ h.1 e), fun e => hne ((h.2 e) ▸ e)⟩
  · rintro ⟨h1, h2⟩; exact ⟨fun e => absurd e h1, fun e => absurd e h2⟩

/-- Two threads race; thread 1's attempt fails once and is repeated on the value found. -/
example : ((sys 8 2).run { x := 254, th := fun _ => .idle } [.call 0 .incZ, .call 1 (.bts 0),
    .run 1, .run 0, .run 0, .run 1, .run 1]).map (fun s => (s.x, s.th 0, s.th 1)) =
    some (255, .ret (.flag false), .ret (.flag true)) := by rfl

end Verif.CasLoop
